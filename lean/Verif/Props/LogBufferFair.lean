import Mathlib.Tactic.Choose
import Verif.Proof.LogBufferHeld
import Verif.Props.LogBufferStuck
import Verif.Props.RingProgress
/-
C101: progress of the trace log over the code of its built-in buffers, in single accesses to shared
memory.
-/
namespace Phosphor.LogBuf
open TLog
variable {ε : Type} {tid : Nat → Nat} {x x' : XSt ε} {t u p : Nat}

/-- The thread is inside `getChunk` or `returnChunk` of buffer `p`. -/
def Inside (x : XSt ε) (p u : Nat) : Prop := x.c.inCall u = some p ∧ ∀ st, x.c.log.pc u ≠ .held .user st

theorem inside_doing (hI : XInv tid x) : doing x.c p u ≠ .out ↔ Inside x p u := by
  unfold doing Inside
  constructor
  · intro h
    split at h
    · rename_i hin
      refine ⟨hin, fun st hp => ?_⟩
      rw [hp] at h; exact h rfl
    · exact absurd rfl h
  · rintro ⟨hin, hp⟩
    rw [if_pos hin]
    have := (hI.inv.inside u p hin).1
    revert this hp
    cases x.c.log.pc u with
    | held w st => cases w <;> simp [Custom.insidePc]
    | _ => simp [Custom.insidePc, kind]

theorem inside_phase (hI : XInv tid x) (hb : x.c.log.buffer = some p) : (x.buf p).phase u ≠ .out ↔ Inside x p u := by
  rw [(hI.link p hb).phase]; exact inside_doing hI

theorem inside_ring {s : RingConc.St} (hI : XInv tid x) (hb : x.c.log.buffer = some p) (hs : x.buf p = .ring s) :
    s.pc u ≠ .idle ↔ Inside x p u := by
  rw [← inside_phase hI hb, hs]; simp only [Buf.phase, ne_eq, rPhase_out]

theorem inside_fixed {s : FSt} (hI : XInv tid x) (hb : x.c.log.buffer = some p) (hs : x.buf p = .fixed s) :
    s.pc u ≠ .idle ↔ Inside x p u := by
  rw [← inside_phase hI hb, hs]; simp only [Buf.phase, ne_eq, fPhase_out]

/-- A step of the composition is a step of the log with any buffer, or an access that leaves the thread inside. -/
theorem c_next {a : XAct ε} (hs : x.next tid t a = .to x') :
    (x'.c = x.c ∧ a ≠ .log .step) ∨ ∃ A, x.c.next tid t A = .to x'.c ∧ (a = .log .step → A = .act .step) := by
  have key : ∀ {o : Out (Custom.CSt ε)}, x.logged t o = .to x' → o = .to x'.c := by
    intro o hs
    unfold XSt.logged at hs
    split at hs
    · split at hs <;> cases hs; rfl
    · cases hs
    · cases hs
  have left : ∀ {b : Nat → Buf} {o : Out (Custom.CSt ε)}, XSt.back b o = .to x' → o = .to x'.c := by
    intro b o hs
    unfold XSt.back at hs
    split at hs <;> cases hs
    rfl
  cases a with
  | log a =>
    simp only [XSt.next] at hs
    split at hs
    · exact .inr ⟨_, key hs, fun h => by cases h; rfl⟩
    · cases hs
  | stats =>
    simp only [XSt.next] at hs
    split at hs
    · exact .inr ⟨_, key hs, fun h => by cases h⟩
    · cases hs
  | access sp =>
    simp only [XSt.next] at hs
    split at hs
    · unfold XSt.access at hs
      split at hs
      · exact .inr ⟨_, left hs, fun h => by cases h⟩
      · split at hs
        · cases hs
        · cases hs
        · cases hs; exact .inl ⟨rfl, fun h => by cases h⟩
        · exact .inr ⟨_, left hs, fun h => by cases h⟩
        · exact .inr ⟨_, left hs, fun h => by cases h⟩
    · cases hs

/-! ### A fixed buffer is wait free -/

/-- Accesses still to be made. -/
def frank : FPc → Nat
  | .idle => 0
  | .count => 3
  | .reset _ => 2
  | .lend _ => 1
  | .unlend => 1

theorem fixed_next {a : XAct ε} {s : FSt} (hI : XInv tid x) (hs : x.next tid t a = .to x')
    (hp : x.c.log.buffer = some p) (hb : x.buf p = .fixed s) :
    ∃ s', x'.buf p = .fixed s' ∧ (∀ u, u ≠ t → s'.pc u = s.pc u) ∧
      ∀ sp, a = .access sp → (∀ w st, x.c.log.pc t ≠ .held w st) → frank (s'.pc t) < frank (s.pc t) := by
  have hi := hI.inv
  have key : ∀ {o : Out (Custom.CSt ε)}, (∀ c', o = .to c' → LogStep x.c t c') → x.logged t o = .to x' →
      ∃ s', x'.buf p = .fixed s' ∧ ∀ u, u ≠ t → s'.pc u = s.pc u := by
    intro o ho hs
    unfold XSt.logged at hs
    split at hs
    case h_2 => cases hs
    case h_3 => cases hs
    case h_1 c' =>
      have h1 := ho c' rfl
      split at hs <;> cases hs
      rename_i b hb'
      cases h1 with
      | quiet nb calls =>
        have e : x.bufs t c' = some x.buf := by unfold XSt.bufs; rw [if_pos nb]; exact enter_quiet calls
        rw [e] at hb'; cases hb'
        exact ⟨s, hb, fun _ _ => rfl⟩
      | get e q hq eq =>
        subst eq
        unfold XSt.bufs at hb'
        rw [if_pos (by rfl), called_some (x := .getBegin t q) rfl] at hb'
        simp only [enter, Option.map_eq_some_iff] at hb'
        obtain ⟨b', hb', rfl⟩ := hb'
        by_cases hpq : p = q
        · subst hpq
          rw [hb] at hb'
          simp only [Buf.get, FSt.get, Option.map_eq_some_iff] at hb'
          obtain ⟨s', hs', rfl⟩ := hb'
          split at hs' <;> cases hs'
          exact ⟨_, setf_self _ _ _, fun u hu => setf_ne _ _ hu⟩
        · exact ⟨s, by simp only [setf_ne _ _ hpq]; exact hb, fun _ _ => rfl⟩
      | ret q i hr eq =>
        subst eq
        unfold XSt.bufs at hb'
        rw [if_pos (by rfl), called_some (x := .retBegin t q i) rfl] at hb'
        simp only [enter, Option.map_eq_some_iff] at hb'
        obtain ⟨b', hb', rfl⟩ := hb'
        by_cases hpq : p = q
        · subst hpq
          rw [hb] at hb'
          simp only [Buf.ret, FSt.ret, Option.map_eq_some_iff] at hb'
          obtain ⟨s', hs', rfl⟩ := hb'
          split at hs' <;> cases hs'
          exact ⟨_, setf_self _ _ _, fun u hu => setf_ne _ _ hu⟩
        · exact ⟨s, by simp only [setf_ne _ _ hpq]; exact hb, fun _ _ => rfl⟩
      | create n st hq log calls ins =>
        have hnb : c'.log.nextBuf ≠ x.c.log.nextBuf := by rw [log]; simp [St.goto, St.createBuffer]
        unfold XSt.bufs at hb'
        rw [if_neg hnb, hq] at hb'
        simp only [toCreate] at hb'
        split at hb' <;> cases hb'
        have := hi.ctl.last _ hp
        have hne : p ≠ x.c.log.nextBuf := by omega
        exact ⟨s, by simp only [setf_ne _ _ hne]; exact hb, fun _ _ => rfl⟩
  have left : ∀ {b : Nat → Buf} {o : Out (Custom.CSt ε)}, XSt.back b o = .to x' → x'.buf = b := by
    intro b o hs
    unfold XSt.back at hs
    split at hs <;> cases hs
    rfl
  cases a with
  | log a =>
    simp only [XSt.next] at hs
    split at hs
    · rename_i hin
      obtain ⟨s', h1, h2⟩ := key (fun c' hc => logStep_act hi hin hc) hs
      exact ⟨s', h1, h2, fun _ h => (by cases h)⟩
    · cases hs
  | stats =>
    simp only [XSt.next] at hs
    split at hs
    · obtain ⟨s', h1, h2⟩ := key (fun c' hc => logStep_stats hc) hs
      exact ⟨s', h1, h2, fun _ h => (by cases h)⟩
    · cases hs
  | access sp =>
    simp only [XSt.next] at hs
    split at hs
    case h_2 => cases hs
    case h_1 q hin =>
      have hq : q = p := by have := (hi.inside t q hin).2; rw [hp] at this; cases this; rfl
      subst hq
      unfold XSt.access at hs
      split at hs
      · rename_i w st hw
        exact ⟨s, by rw [left hs]; exact hb, fun _ _ => rfl, fun _ _ h => absurd hw (h w st)⟩
      · rw [hb] at hs
        have ev : ∀ s', (fun u => s'.pc u) = setf s.pc t (s'.pc t) → frank (s'.pc t) < frank (s.pc t) → x'.buf q = .fixed s' →
            ∃ s', x'.buf q = .fixed s' ∧ (∀ u, u ≠ t → s'.pc u = s.pc u) ∧
            ∀ sp', XAct.access (ε := ε) sp = .access sp' → (∀ w st, x.c.log.pc t ≠ .held w st) → frank (s'.pc t) < frank (s.pc t) := by
          intro s' h1 h2 h3
          exact ⟨s', h3, fun u hu => by rw [show s'.pc u = setf s.pc t (s'.pc t) u from congrFun h1 u]; exact setf_ne _ _ hu, fun _ _ _ => h2⟩
        simp only [Buf.step, FSt.step] at hs
        generalize hpc : s.pc t = pc at hs
        cases pc with
        | idle => simp [Buf.fixedEv] at hs
        | count =>
          dsimp only at hs
          by_cases hc : s.issued ≥ s.size
          · rw [if_pos hc] at hs
            dsimp only [Buf.fixedEv] at hs
            rw [← hpc]; refine ev _ ?_ ?_ (by rw [left hs]; exact setf_self _ _ _) <;> simp [setf_self, hpc, frank]
          · rw [if_neg hc] at hs
            dsimp only [Buf.fixedEv] at hs
            cases hs
            rw [← hpc]; refine ev _ ?_ ?_ (setf_self _ _ _) <;> simp [setf_self, hpc, frank]
        | reset i =>
          dsimp only at hs
          by_cases hc : i < s.size
          · rw [if_pos hc] at hs
            dsimp only [Buf.fixedEv] at hs
            cases hs
            rw [← hpc]; refine ev _ ?_ ?_ (setf_self _ _ _) <;> simp [setf_self, hpc, frank]
          · rw [if_neg hc] at hs
            simp [Buf.fixedEv] at hs
        | lend i =>
          dsimp only [Buf.fixedEv] at hs
          rw [← hpc]; refine ev _ ?_ ?_ (by rw [left hs]; exact setf_self _ _ _) <;> simp [setf_self, hpc, frank]
        | unlend =>
          dsimp only [Buf.fixedEv] at hs
          rw [← hpc]; refine ev _ ?_ ?_ (by rw [left hs]; exact setf_self _ _ _) <;> simp [setf_self, hpc, frank]

/-- The number of accesses of thread `u` in `l`. -/
def accesses (u : Nat) (l : List (Nat × XAct ε)) : Nat :=
  l.countP fun a => a.1 == u && match a.2 with | .access _ => true | _ => false

/-- C101: a call of a fixed buffer returns after three accesses of its thread at most, whatever the others do. -/
theorem C101_wait_free {s : FSt} (h : Reachable tid x) (hin : Inside x p u) (hb : x.buf p = .fixed s)
    {l : List (Nat × XAct ε)} (hr : x.run tid l = .to x') (hl : 3 ≤ accesses u l) :
    ∃ l1 y, l1 <+: l ∧ x.run tid l1 = .to y ∧ ¬ Inside y p u := by
  have main : ∀ (l : List (Nat × XAct ε)) (x : XSt ε) (s : FSt), Reachable tid x → Inside x p u → x.buf p = .fixed s →
      x.run tid l = .to x' → frank (s.pc u) ≤ accesses u l → ∃ l1 y, l1 <+: l ∧ x.run tid l1 = .to y ∧ ¬ Inside y p u := by
    intro l
    induction l with
    | nil =>
      intro x s h hin hb hr hl
      exfalso
      have hbuf := (h.inv.inv.inside u p hin.1).2
      have := (inside_fixed h.inv hbuf hb (u := u)).2 hin
      cases hp : s.pc u <;> rw [hp] at hl this <;> first | exact this rfl | (simp [frank, accesses] at hl; done)
    | cons y l ih =>
      intro x s h hin hb hr hl
      obtain ⟨t, a⟩ := y
      have hI := h.inv
      have hbuf := (hI.inv.inside u p hin.1).2
      simp only [XSt.run] at hr
      split at hr
      case h_2 => cases hr
      case h_3 => cases hr
      case h_1 x1 hs =>
        by_cases hi1 : Inside x1 p u
        · obtain ⟨s1, b1, o1, a1⟩ := fixed_next hI hs hbuf hb
          have hle : frank (s1.pc u) ≤ accesses u l := by
            by_cases htu : t = u
            · subst htu
              cases a with
              | access sp =>
                have hw : ∀ w st, x.c.log.pc t ≠ .held w st := by
                  intro w st hw
                  have h1 := (hI.inv.inside t p hin.1).1
                  rw [hw] at h1
                  cases w <;> simp [Custom.insidePc] at h1
                  exact hin.2 st hw
                have := a1 sp rfl hw
                simp only [accesses, List.countP_cons, BEq.rfl, Bool.true_and, if_true] at hl
                simp only [accesses]
                omega
              | log a => simp [XSt.next, hin.1] at hs
              | stats => simp [XSt.next, hin.1] at hs
            · rw [o1 u (Ne.symm htu)]
              have htb : (t == u) = false := by simpa using htu
              simpa [accesses, List.countP_cons, htb] using hl
          obtain ⟨l1, y, h1, h2, h3⟩ := ih x1 s1 (.step h hs) hi1 b1 hr hle
          exact ⟨(t, a) :: l1, y, List.cons_prefix_cons.2 ⟨rfl, h1⟩, by simp only [XSt.run, hs, h2], h3⟩
        · exact ⟨[(t, a)], x1, by simp, by simp only [XSt.run, hs], hi1⟩
  refine main l x s h hin hb hr (Nat.le_trans ?_ hl)
  cases s.pc u <;> simp [frank]

/-! ### Endless executions -/

/-- An endless execution; `none`: nothing happens for a while. -/
structure Execution (tid : Nat → Nat) (σ : Nat → XSt ε) (act : Nat → Option (Nat × XAct ε)) : Prop where
  start : Reachable tid (σ 0)
  step : ∀ n u a, act n = some (u, a) → (σ n).next tid u a = .to (σ (n + 1))
  rest : ∀ n, act n = none → σ (n + 1) = σ n

/-- What a thread does if it goes on: an access inside the buffer, or a step of the log. -/
def XSt.own (x : XSt ε) (u : Nat) : XAct ε := if x.c.inCall u = none then .log .step else .access false

/-- The scheduler is fair: a thread that can go on at all times from some time on does go on, and its
compare-exchanges inside the buffer do not fail spuriously for ever. -/
structure Fair (tid : Nat → Nat) (σ : Nat → XSt ε) (act : Nat → Option (Nat × XAct ε)) : Prop where
  goes : ∀ u n, (∀ m, n ≤ m → ∃ y, (σ m).next tid u ((σ m).own u) = .to y) → ∃ m, n ≤ m ∧ act m = some (u, (σ m).own u)
  calm : ∀ u, ∃ n, ∀ m, n ≤ m → act m ≠ some (u, .access true)

variable {σ : Nat → XSt ε} {act : Nat → Option (Nat × XAct ε)}

theorem Execution.reach (e : Execution tid σ act) (n : Nat) : Reachable tid (σ n) := by
  induction n with
  | zero => exact e.start
  | succ n ih =>
    cases ha : act n with
    | none => rw [e.rest n ha]; exact ih
    | some a => exact .step ih (e.step n a.1 a.2 ha)

def Buf.asRing : Buf → RingConc.St
  | .ring s => s
  | .fixed _ => RingConc.St.init 1

/-- C101: the log over a ring has no livelock inside the buffer: under a fair scheduler, as long as some thread is in
`getChunk` or `returnChunk`, some such call returns again; or from some time on every chunk is held by a thread that
does not return it. -/
theorem C101_progress (e : Execution tid σ act) (f : Fair tid σ act) {n : Nat} {s : RingConc.St}
    (hin : Inside (σ n) p t) (hb : (σ n).buf p = .ring s) :
    (∃ m, n ≤ m ∧ ∃ u, Inside (σ m) p u ∧ ¬ Inside (σ (m + 1)) p u) ∨
    ∃ N, ∀ m, N ≤ m → ∃ s', (σ m).buf p = .ring s' ∧ s'.size = s.size ∧ ∀ i, i < s.size → ∃ u, (u, i) ∈ s'.holds := by
  by_cases hret : ∃ m, n ≤ m ∧ ∃ u, Inside (σ m) p u ∧ ¬ Inside (σ (m + 1)) p u
  · exact .inl hret
  right
  have stays : ∀ m, n ≤ m → ∀ u k, Inside (σ m) p u → m ≤ k → Inside (σ k) p u := by
    intro m hm u k hi hk
    induction hk with
    | refl => exact hi
    | @step k hk ih =>
      by_cases h1 : Inside (σ (k + 1)) p u
      · exact h1
      · exact absurd ⟨k, Nat.le_trans hm hk, u, ih, h1⟩ hret
  have buf : ∀ m, n ≤ m → (σ m).c.log.buffer = some p := fun m hm =>
    ((e.reach m).inv.inv.inside t p (stays n (Nat.le_refl _) t m hin hm).1).2
  have ring : ∀ m, n ≤ m → ∃ s', (σ m).buf p = .ring s' := by
    intro m hm
    induction hm with
    | refl => exact ⟨s, hb⟩
    | @step m hm ih =>
      obtain ⟨s1, h1⟩ := ih
      cases ha : act m with
      | none => exact ⟨s1, by rw [e.rest m ha]; exact h1⟩
      | some a =>
        rcases ring_next (e.reach m).inv (e.step m a.1 a.2 ha) (buf m hm) h1 with ⟨_, s', _, _, h2, _⟩ | ⟨_, h2 | ⟨_, s', _, h2, _⟩⟩
        · exact ⟨s', h2⟩
        · exact ⟨s1, h2⟩
        · exact ⟨s', h2⟩
  obtain ⟨ρ, hρ⟩ : ∃ ρ : Nat → RingConc.St, ∀ m, (σ (n + m)).buf p = .ring (ρ m) := by
    refine ⟨fun m => ((σ (n + m)).buf p).asRing, fun m => ?_⟩
    obtain ⟨s', h1⟩ := ring (n + m) (by omega)
    simp only [h1, Buf.asRing]
  have proj : ∀ m, ∃ o : Option (Nat × RingConc.Choice),
      (∀ u c, o = some (u, c) → (ρ m).next u c = .to (ρ (m + 1))) ∧ (o = none → ρ (m + 1) = ρ m) ∧
      (∀ u, act (n + m) = some (u, .access false) → Inside (σ (n + m)) p u → o = some (u, .step)) ∧
      (∀ u, o = some (u, .spurious) → act (n + m) = some (u, .access true)) := by
    intro m
    have h0 := hρ m
    have h1 := hρ (m + 1)
    cases ha : act (n + m) with
    | none =>
      refine ⟨none, fun _ _ h => (by cases h), fun _ => ?_, fun _ h => (by cases h), fun _ h => (by cases h)⟩
      have e1 := e.rest _ ha
      rw [show n + (m + 1) = n + m + 1 from rfl, e1, h0] at h1
      injection h1 with h1; exact h1.symm
    | some a =>
      obtain ⟨u, a⟩ := a
      have hs := e.step _ u a ha
      have hI := (e.reach (n + m)).inv
      rcases ring_next hI hs (buf (n + m) (by omega)) h0 with
        ⟨sp, s', ea, hw, h2, h3⟩ | ⟨hh, h2 | ⟨c, s', hc, h2, h3⟩⟩
      · rw [show n + m + 1 = n + (m + 1) from rfl, h1] at h2
        cases h2
        refine ⟨some (u, if sp then .spurious else .step), fun v c h => ?_, fun h => (by cases h), fun v h _ => ?_, fun v h => ?_⟩
        · cases h; exact h3
        · cases h; cases ea; rfl
        · cases sp
          · cases h
          · cases h; rw [ea]
      · rw [show n + m + 1 = n + (m + 1) from rfl, h1] at h2
        refine ⟨none, fun _ _ h => (by cases h), fun _ => (by injection h2), fun v h hv => ?_, fun _ h => (by cases h)⟩
        cases h
        obtain ⟨w, st, hw⟩ := hh false rfl
        have h4 := (hI.inv.inside u p hv.1).1
        rw [hw] at h4
        cases w <;> simp [Custom.insidePc] at h4
        exact absurd hw (hv.2 st)
      · rw [show n + m + 1 = n + (m + 1) from rfl, h1] at h2
        cases h2
        refine ⟨some (u, c), fun v c' h => (by cases h; exact h3), fun h => (by cases h), fun v h hv => ?_, fun v h => ?_⟩
        · cases h
          obtain ⟨w, st, hw⟩ := hh false rfl
          have h4 := (hI.inv.inside u p hv.1).1
          rw [hw] at h4
          cases w <;> simp [Custom.insidePc] at h4
          exact absurd hw (hv.2 st)
        · cases h
          rcases hc with hc | ⟨i, hc⟩ <;> cases hc
  choose ract hract using proj
  have hsize : ∀ m, (ρ m).size = (ρ 0).size := by
    intro m
    induction m with
    | zero => rfl
    | succ m ih =>
      cases ho : ract m with
      | none => rw [(hract m).2.1 ho]; exact ih
      | some a => rw [RingConc.next_size ((hract m).1 a.1 a.2 ho)]; exact ih
  have h00 : ρ 0 = s := by
    have := hρ 0
    rw [show n + 0 = n from rfl, hb] at this
    cases this; rfl
  obtain ⟨k, k1, k2, hR⟩ := (C100_contract (e.reach n)).2 p s (buf n (Nat.le_refl _)) hb
  have X : RingConc.Execution k ρ ract := ⟨by rw [h00]; exact hR, fun m u c h => (hract m).1 u c h, fun m h => (hract m).2.1 h⟩
  have ins : ∀ m u, (ρ m).pc u ≠ .idle ↔ Inside (σ (n + m)) p u := fun m u =>
    inside_ring (e.reach (n + m)).inv (buf (n + m) (by omega)) (hρ m)
  have F : RingConc.Fair ρ ract := by
    constructor
    · intro u m hm
      have hall : ∀ j, n + m ≤ j → Inside (σ j) p u := by
        intro j hj
        have := (ins (j - n) u).1 (hm (j - n) (by omega))
        rwa [show n + (j - n) = j by omega] at this
      obtain ⟨j, hj, ha⟩ := f.goes u (n + m) (fun j hj => by
        have hi := hall j hj
        have : (σ j).own u = .access false := by unfold XSt.own; rw [hi.1]; rfl
        rw [this]
        exact C100_goes_on (e.reach j) hi.1 false)
      have hi := hall j hj
      have : (σ j).own u = .access false := by unfold XSt.own; rw [hi.1]; rfl
      rw [this] at ha
      refine ⟨j - n, by omega, (hract (j - n)).2.2.1 u ?_ ?_⟩
      · rw [show n + (j - n) = j by omega]; exact ha
      · rw [show n + (j - n) = j by omega]; exact hi
    · intro u
      obtain ⟨N, hN⟩ := f.calm u
      refine ⟨N, fun m hm h => hN (n + m) (by omega) ((hract m).2.2.2 u h)⟩
  rcases RingConc.C99_progress k1 k2 X F (n := 0) ((ins 0 t).2 hin) with ⟨m, _, u, r1, r2⟩ | ⟨N, hN⟩
  · exfalso
    refine hret ⟨n + m, by omega, u, (ins m u).1 r1, fun hi => ?_⟩
    exact (ins (m + 1) u).2 hi r2
  · refine ⟨n + N, fun m hm => ⟨ρ (m - n), ?_, ?_, ?_⟩⟩
    · have := hρ (m - n)
      rwa [show n + (m - n) = m by omega] at this
    · rw [hsize, h00]
    · intro i hi
      rw [hR.size_eq] at hi
      exact hN (m - n) (by omega) i hi

/-! ### A stop comes to its end -/

theorem in_log (h : Reachable tid x) : ∃ L : List Nat, ∀ u, x.c.log.pc u ≠ .idle → u ∈ L := by
  induction h with
  | init => exact ⟨[], fun u h => absurd rfl h⟩
  | @step x x' t a hr hs ih =>
    obtain ⟨L, hL⟩ := ih
    refine ⟨t :: L, fun u hu => ?_⟩
    by_cases e : u = t
    · subst e; simp
    · rw [(next_other hr.inv hs e).1] at hu; exact List.mem_cons_of_mem _ (hL u hu)

/-- A sequence of numbers that never grows is constant from some time on. -/
theorem settles {f : Nat → Nat} {n : Nat} (hle : ∀ m, n ≤ m → f (m + 1) ≤ f m) :
    ∃ k, n ≤ k ∧ ∀ m, k ≤ m → f (m + 1) = f m := by
  have main : ∀ v k, n ≤ k → f k = v → ∃ k', n ≤ k' ∧ ∀ m, k' ≤ m → f (m + 1) = f m := by
    intro v
    induction v using Nat.strongRecOn with
    | _ v ih =>
      intro k hk hv
      by_cases h : ∃ m, k ≤ m ∧ f (m + 1) ≠ f m
      · obtain ⟨m, hm, hne⟩ := h
        have mono : ∀ j, k ≤ j → f j ≤ f k := by
          intro j hj
          induction hj with
          | refl => exact Nat.le_refl _
          | @step j hj ihj => exact Nat.le_trans (hle j (Nat.le_trans hk hj)) ihj
        have h1 := mono m hm
        have h2 := hle m (by omega)
        exact ih (f (m + 1)) (by omega) (m + 1) (by omega) rfl
      · exact ⟨k, hk, fun m hm => by
          by_cases h' : f (m + 1) = f m
          · exact h'
          · exact absurd ⟨m, hm, h'⟩ h⟩
  exact main _ n (Nat.le_refl _) rfl

/-- C101: a stop that empties the tenants gets to its end under every fair scheduler, whatever threads go on to do, over
a fixed buffer or over a ring of at least one chunk for each registered thread. (With fewer chunks a stop may wait for
ever: C101_refuted_room.) -/
theorem C101_stop (e : Execution tid σ act) (f : Fair tid σ act) {n : Nat} (he : ((σ n).c.log.pc t).evicting = true)
    (room : ∀ p s, (σ n).c.log.buffer = some p → (σ n).buf p = .ring s → (σ n).c.log.registered.length ≤ s.size) :
    ∃ m, n < m ∧ ∃ i, (σ m).c.log.hist = i :: (σ n).c.log.hist ∧ (i = .noCall ∨ ∃ cb, i = .call cb) := by
  by_cases hno : ∃ m, n < m ∧ ∃ i, (σ m).c.log.hist = i :: (σ n).c.log.hist ∧ (i = .noCall ∨ ∃ cb, i = .call cb)
  · exact hno
  exfalso
  -- the stop goes on for ever
  have inv : ∀ m, n ≤ m → ((σ m).c.log.pc t).evicting = true ∧ (σ m).c.log.hist = (σ n).c.log.hist ∧
      (σ m).c.log.buffer = (σ n).c.log.buffer ∧ (σ m).c.log.registered = (σ n).c.log.registered := by
    intro m hm
    induction hm with
    | refl => exact ⟨he, rfl, rfl, rfl⟩
    | @step m hm ih =>
      have hm : n ≤ m := hm
      obtain ⟨i1, i2, i3, i4⟩ := ih
      cases ha : act m with
      | none => rw [e.rest m ha]; exact ⟨i1, i2, i3, i4⟩
      | some a =>
        obtain ⟨u, a⟩ := a
        have hi := (e.reach m).inv.inv
        rcases c_next (e.step m u a ha) with ⟨hs, _⟩ | ⟨A, hs, _⟩
        · rw [hs]; exact ⟨i1, i2, i3, i4⟩
        · by_cases hu : u = t
          · subst hu
            rcases (Custom.stopping_next hi i1 hs).1 with ⟨i, h1, h2⟩ | ⟨h1, h2, h4, h5, _⟩
            · exact absurd ⟨m + 1, by omega, i, by rw [h1, i2], h2⟩ hno
            · exact ⟨h1, by rw [h2, i2], by rw [h4, i3], by rw [h5, i4]⟩
          · have P := Custom.passing_next hi hu i1 hs
            exact ⟨by rw [P.pc]; exact i1, by rw [P.hist, i2], by rw [P.buffer, i3], by rw [P.registered, i4]⟩
  -- the other threads get closer to leaving
  have away : ∀ u, u ≠ t → ∀ m, n ≤ m → (σ (m + 1)).c.away u ≤ (σ m).c.away u := by
    intro u hu m hm
    cases ha : act m with
    | none => rw [e.rest m ha]; exact Nat.le_refl _
    | some a =>
      obtain ⟨v, a⟩ := a
      have hI := (e.reach m).inv
      have hs := e.step m v a ha
      by_cases hv : v = u
      · subst hv
        rcases c_next hs with ⟨h1, _⟩ | ⟨A, h1, _⟩
        · rw [h1]; exact Nat.le_refl _
        · exact (Custom.passing_next hI.inv hu (inv m hm).1 h1).away
      · have := next_other hI hs (Ne.symm hv)
        simp only [Custom.CSt.away, this.1, this.2]; exact Nat.le_refl _
  obtain ⟨L, hL⟩ := in_log (e.reach n)
  have const : ∃ K, n ≤ K ∧ ∀ u ∈ L, u ≠ t → ∀ m, K ≤ m → (σ (m + 1)).c.away u = (σ m).c.away u := by
    clear hL
    induction L with
    | nil => exact ⟨n, Nat.le_refl _, fun u hu => (by cases hu)⟩
    | cons v L ih =>
      obtain ⟨K, hK, h1⟩ := ih
      by_cases hv : v = t
      · refine ⟨K, hK, fun u hu hut => ?_⟩
        rcases List.mem_cons.1 hu with rfl | hu
        · exact absurd hv hut
        · exact h1 u hu hut
      · obtain ⟨K', hK', h2⟩ := settles (f := fun m => (σ m).c.away v) (n := n) (away v hv)
        refine ⟨max K K', by omega, fun u hu hut m hm => ?_⟩
        rcases List.mem_cons.1 hu with rfl | hu
        · exact h2 m (by omega)
        · exact h1 u hu hut m (by omega)
  obtain ⟨K, hK, hconst⟩ := const
  have still : ∀ u, u ≠ t → ∀ m, K ≤ m → (σ (m + 1)).c.away u = (σ m).c.away u := by
    intro u hu m hm
    by_cases huL : u ∈ L
    · exact hconst u huL hu m hm
    · have h0 : (σ n).c.away u = 0 := by
        have : (σ n).c.log.pc u = .idle := by
          by_cases h : (σ n).c.log.pc u = .idle
          · exact h
          · exact absurd (hL u h) huL
        simp [Custom.CSt.away, this, Pc.inside, Pc.left]
      have zero : ∀ j, n ≤ j → (σ j).c.away u = 0 := by
        intro j hj
        induction hj with
        | refl => exact h0
        | @step j hj ih =>
          have := away u hu j hj
          show (σ (j + 1)).c.away u = 0
          omega
      rw [zero m (by omega), zero (m + 1) (by omega)]
  have later : ∀ u, u ≠ t → ∀ m, K ≤ m → (σ m).c.away u = (σ K).c.away u := by
    intro u hu m hm
    induction hm with
    | refl => rfl
    | @step m hm ih => rw [still u hu m hm]; exact ih
  -- who is inside a function of the buffer stays there
  have busy : ∀ u, u ≠ t → ∀ m, n ≤ m → ∀ q, (σ m).c.inCall u = some q → 0 < ((σ m).c.log.pc u).inside ∧ Inside (σ m) q u := by
    intro u hu m hm q hq
    have hi := (e.reach m).inv.inv
    have hmx := Custom.no_mutex hi hu (inv m hm).1
    have h1 := (hi.inside u q hq).1
    refine ⟨?_, hq, fun st hp => by rw [hp] at hmx; cases hmx⟩
    revert h1 hmx
    cases (σ m).c.log.pc u with
    | held w st => simp [Pc.holdsMutex]
    | deregBody => simp [Pc.holdsMutex]
    | _ => simp [Custom.insidePc, Pc.inside, Pc.left]
  have same : ∀ u, u ≠ t → ∀ m, K ≤ m → ((σ (m + 1)).c.inCall u = none ↔ (σ m).c.inCall u = none) := by
    intro u hu m hm
    have h1 := still u hu m hm
    have b0 := busy u hu m (by omega)
    have b1 := busy u hu (m + 1) (by omega)
    simp only [Custom.CSt.away] at h1
    cases c0 : (σ m).c.inCall u with
    | none =>
      cases c1 : (σ (m + 1)).c.inCall u with
      | none => simp
      | some q => have := (b1 q c1).1; rw [c0, c1] at h1; simp at h1; omega
    | some q0 =>
      cases c1 : (σ (m + 1)).c.inCall u with
      | none => have := (b0 q0 c0).1; rw [c0, c1] at h1; simp at h1; omega
      | some q => simp
  have same' : ∀ u, u ≠ t → ∀ m, K ≤ m → ((σ m).c.inCall u = none ↔ (σ K).c.inCall u = none) := by
    intro u hu m hm
    induction hm with
    | refl => exact Iff.rfl
    | @step m hm ih => rw [same u hu m hm]; exact ih
  -- so there is nobody inside
  have free : ∀ u, u ≠ t → (σ K).c.inCall u = none := by
    intro u hu
    cases hq : (σ K).c.inCall u with
    | none => rfl
    | some q =>
      exfalso
      have hin : ∀ m, K ≤ m → Inside (σ m) q u := by
        intro m hm
        cases hm' : (σ m).c.inCall u with
        | none => rw [same' u hu m hm, hq] at hm'; cases hm'
        | some q' =>
          have h1 := ((e.reach m).inv.inv.inside u q' hm').2
          have h2 := ((e.reach K).inv.inv.inside u q hq).2
          rw [(inv m (by omega)).2.2.1, ← (inv K hK).2.2.1, h2] at h1
          cases h1
          exact (busy u hu m (by omega) q hm').2
      have hbuf : ∀ m, K ≤ m → (σ m).c.log.buffer = some q := fun m hm => ((e.reach m).inv.inv.inside u q (hin m hm).1).2
      have hbn : (σ n).c.log.buffer = some q := by rw [← (inv K hK).2.2.1]; exact hbuf K (Nat.le_refl _)
      have bufn : ∀ m, n ≤ m → (σ m).c.log.buffer = some q := fun m hm => by rw [(inv m hm).2.2.1]; exact hbn
      cases hb : (σ n).buf q with
      | ring s =>
        have ring : ∀ m, n ≤ m → ∃ s', (σ m).buf q = .ring s' ∧ s'.size = s.size := by
          intro m hm
          induction hm with
          | refl => exact ⟨s, hb, rfl⟩
          | @step m hm ih =>
            obtain ⟨s1, h1, h1'⟩ := ih
            cases ha : act m with
            | none => exact ⟨s1, by rw [e.rest m ha]; exact h1, h1'⟩
            | some a =>
              rcases ring_next (e.reach m).inv (e.step m a.1 a.2 ha) (bufn m hm) h1 with ⟨_, s', _, _, h2, h3⟩ | ⟨_, h2 | ⟨_, s', _, h2, h3⟩⟩
              · exact ⟨s', h2, by rw [RingConc.next_size h3]; exact h1'⟩
              · exact ⟨s1, h2, h1'⟩
              · exact ⟨s', h2, by rw [RingConc.next_size h3]; exact h1'⟩
        obtain ⟨s1, hb1, hz1⟩ := ring K hK
        rcases C101_progress e f (hin K (Nat.le_refl _)) hb1 with ⟨m, hm, v, v1, v2⟩ | ⟨N, hN⟩
        · have hvt : v ≠ t := by
            rintro rfl
            have h1 := ((e.reach m).inv.inv.inside v q v1.1).1
            have h2 := (inv m (by omega)).1
            revert h1 h2
            cases hp : (σ m).c.log.pc v with
            | held w st => cases w <;> simp [Custom.insidePc, Pc.evicting]
            | _ => simp [Pc.evicting]
          cases hc : (σ (m + 1)).c.inCall v with
          | none => rw [same v hvt m hm, v1.1] at hc; cases hc
          | some q' =>
            have h1 := ((e.reach (m + 1)).inv.inv.inside v q' hc).2
            rw [bufn (m + 1) (by omega)] at h1
            cases h1
            exact v2 (busy v hvt (m + 1) (by omega) q hc).2
        · let M := max N K
          have hM : K ≤ M := Nat.le_max_right _ _
          obtain ⟨s', hb', hz', hall⟩ := hN M (Nat.le_max_left _ _)
          have hI := (e.reach M).inv
          have hi := hI.inv
          have Lk := hI.link q (hbuf M hM)
          have iu := hin M hM
          have hreg : u ∈ (σ M).c.log.registered := by
            rw [hi.ctl.reg]
            refine hi.ctl.pastInit u ?_
            have h1 := (hi.inside u q iu.1).1
            have hmx := Custom.no_mutex hi hu (inv M (by omega)).1
            revert h1 hmx
            cases (σ M).c.log.pc u with
            | held w st => simp [Pc.holdsMutex]
            | deregBody => simp [Pc.holdsMutex]
            | _ => simp [Custom.insidePc, Pc.pastInit]
          have hnone : ∀ i, Custom.holder (σ M).c.calls q i ≠ some u := by
            intro i hc
            have h1 := (hi.inside u q iu.1).1
            have hmx := Custom.no_mutex hi hu (inv M (by omega)).1
            cases hr : Custom.returning ((σ M).c.log.pc u) with
            | true => exact hi.gave u q i iu.1 hr hc
            | false =>
              have hpc : ∃ ev, (σ M).c.log.pc u = .getWait ev q := by
                revert h1 hmx hr
                cases (σ M).c.log.pc u with
                | held w st => simp [Pc.holdsMutex]
                | getWait ev q' => intro h1 _ _; simp only [Custom.insidePc] at h1; exact ⟨ev, by rw [h1]⟩
                | _ => simp [Custom.insidePc, Custom.returning]
              obtain ⟨ev, hpc⟩ := hpc
              have hnc := hi.ctl.noChunk u (by simp [hpc, Pc.noChunk])
              rcases hi.kept u q i hc (hbuf M hM) with g1 | ⟨_, g1, _⟩
              · rw [hnc] at g1; cases g1
              · rw [hpc] at g1; cases g1
          have hlt := hI.reach.spare (inv M (by omega)).1 (hbuf M hM) hreg hnone (n := s1.size) (fun i hi' => by
            obtain ⟨v, hv⟩ := hall i hi'
            exact ⟨v, (Lk.holds v i).1 (by rw [hb']; exact hv)⟩)
          have := room q s hbn hb
          rw [(inv M (by omega)).2.2.2] at hlt
          omega
      | fixed s =>
        have fx : ∀ m, n ≤ m → ∃ s', (σ m).buf q = .fixed s' := by
          intro m hm
          induction hm with
          | refl => exact ⟨s, hb⟩
          | @step m hm ih =>
            obtain ⟨s1, h1⟩ := ih
            cases ha : act m with
            | none => exact ⟨s1, by rw [e.rest m ha]; exact h1⟩
            | some a =>
              obtain ⟨s', h2, _⟩ := fixed_next (e.reach m).inv (e.step m a.1 a.2 ha) (bufn m hm) h1
              exact ⟨s', h2⟩
        let r : Nat → Nat := fun m => match (σ m).buf q with
          | .fixed s => frank (s.pc u)
          | .ring _ => 0
        have hr : ∀ m s', (σ m).buf q = .fixed s' → r m = frank (s'.pc u) := by
          intro m s' h1; show (match (σ m).buf q with | .fixed s => frank (s.pc u) | .ring _ => 0) = _; rw [h1]
        have hw : ∀ m, K ≤ m → ∀ w st, (σ m).c.log.pc u ≠ .held w st := by
          intro m hm w st hp
          have := Custom.no_mutex (e.reach m).inv.inv hu (inv m (by omega)).1
          rw [hp] at this; cases this
        have own : ∀ m, K ≤ m → (σ m).own u = .access false := by
          intro m hm; unfold XSt.own; rw [(hin m hm).1]; rfl
        have down : ∀ m, K ≤ m → r (m + 1) ≤ r m ∧ (act m = some (u, .access false) → r (m + 1) < r m) := by
          intro m hm
          obtain ⟨s1, b1⟩ := fx m (by omega)
          cases ha : act m with
          | none =>
            have : r (m + 1) = r m := by
              rw [hr m s1 b1, hr (m + 1) s1 (by rw [e.rest m ha]; exact b1)]
            exact ⟨Nat.le_of_eq this, fun h => (by cases h)⟩
          | some a =>
            obtain ⟨v, a⟩ := a
            obtain ⟨s2, b2, o2, a2⟩ := fixed_next (e.reach m).inv (e.step m v a ha) (bufn m (by omega)) b1
            rw [hr m s1 b1, hr (m + 1) s2 b2]
            by_cases hv : v = u
            · subst hv
              cases a with
              | access sp =>
                have := a2 sp rfl (hw m hm)
                exact ⟨Nat.le_of_lt this, fun _ => this⟩
              | log a => have := e.step m v _ ha; simp [XSt.next, (hin m hm).1] at this
              | stats => have := e.step m v _ ha; simp [XSt.next, (hin m hm).1] at this
            · rw [o2 u (Ne.symm hv)]
              exact ⟨Nat.le_refl _, fun h => by cases h; exact absurd rfl hv⟩
        obtain ⟨k, hk, hc⟩ := settles (f := r) (n := K) (fun m hm => (down m hm).1)
        obtain ⟨m, hm, ha⟩ := f.goes u k (fun m hm => by
          rw [own m (by omega)]; exact C100_goes_on (e.reach m) (hin m (by omega)).1 false)
        rw [own m (by omega)] at ha
        have h1 := (down m (by omega)).2 ha
        have h2 := hc m hm
        omega
  -- and everyone is clear
  have clear : ∀ u, u ≠ t → ∀ m, K ≤ m → ((σ m).c.log.pc u).holdsSlave = false := by
    intro u hu m hm
    cases hh : ((σ m).c.log.pc u).holdsSlave with
    | false => rfl
    | true =>
      exfalso
      have hpos : 0 < (σ m).c.away u := Custom.away_pos.2 (Pc.holds_inside hh)
      have hposK : ∀ j, K ≤ j → 0 < (σ j).c.away u := fun j hj => by
        rw [later u hu j hj, ← later u hu m hm]; exact hpos
      have nin : ∀ j, K ≤ j → (σ j).c.inCall u = none := fun j hj => (same' u hu j hj).2 (free u hu)
      have own : ∀ j, K ≤ j → (σ j).own u = .log .step := by
        intro j hj; unfold XSt.own; rw [nin j hj]; rfl
      obtain ⟨j, hj, ha⟩ := f.goes u K (fun j hj => by
        rw [own j hj]
        have hI := (e.reach j).inv
        obtain ⟨h1, _⟩ := Custom.away_step (tid := tid) hI.inv hu (inv j (by omega)).1 (nin j hj) (hposK j hj)
        have h2 := Custom.C92_defined hI.reach u (.act .step)
        cases hc : (σ j).c.next tid u (.act .step) with
        | blocked => exact absurd hc h1
        | ub => exact absurd hc h2
        | «to» c =>
          obtain ⟨y, hy, _⟩ := C100_accepted (e.reach j) (nin j hj) hc (fun n st hp => by
            have := Custom.no_mutex hI.inv hu (inv j (by omega)).1
            rw [hp] at this; cases this)
          exact ⟨y, hy⟩)
      rw [own j hj] at ha
      have hI := (e.reach j).inv
      have hs := e.step j u _ ha
      have h1 := still u hu j hj
      rcases c_next hs with ⟨_, h2⟩ | ⟨A, h2, h3⟩
      · exact h2 rfl
      · rw [h3 rfl] at h2
        have := (Custom.away_step (tid := tid) hI.inv hu (inv j (by omega)).1 (nin j hj) (hposK j hj)).2 _ h2
        omega
  -- so the stop runs out of steps
  have tin : ∀ m, n ≤ m → (σ m).c.inCall t = none := by
    intro m hm
    cases hx : (σ m).c.inCall t with
    | none => rfl
    | some q =>
      have h1 := ((e.reach m).inv.inv.inside t q hx).1
      have h2 := (inv m hm).1
      revert h1 h2
      cases hp : (σ m).c.log.pc t with
      | held w st => cases w <;> simp [Custom.insidePc, Pc.evicting]
      | _ => simp [Pc.evicting]
  have down : ∀ m, K ≤ m → ((σ (m + 1)).c.log.pc t).evictLeft ≤ ((σ m).c.log.pc t).evictLeft ∧
      (act m = some (t, .log .step) → ((σ (m + 1)).c.log.pc t).evictLeft < ((σ m).c.log.pc t).evictLeft) := by
    intro m hm
    cases ha : act m with
    | none => rw [e.rest m ha]; exact ⟨Nat.le_refl _, fun h => (by cases h)⟩
    | some a =>
      obtain ⟨v, a⟩ := a
      have hI := (e.reach m).inv
      have hs := e.step m v a ha
      by_cases hv : v = t
      · subst hv
        rcases c_next hs with ⟨h1, h2⟩ | ⟨A, h1, h2⟩
        · exact ⟨by rw [h1]; exact Nat.le_refl _, fun h => absurd (by cases h; rfl) h2⟩
        · rcases (Custom.stopping_next hI.inv (inv m (by omega)).1 h1).1 with ⟨i, g1, g2⟩ | ⟨_, _, _, _, g7, _, g9⟩
          · exact absurd ⟨m + 1, by omega, i, by rw [g1, (inv m (by omega)).2.1], g2⟩ hno
          · refine ⟨g7, fun h => ?_⟩
            cases h
            rcases g9 (h2 rfl) with g9 | ⟨w, hw, hh⟩
            · exact g9
            · exfalso
              by_cases hwt : w = v
              · subst hwt
                have := (inv m (by omega)).1
                revert this hh
                cases (σ m).c.log.pc w <;> simp [Pc.evicting, Pc.holdsSlave]
              · rw [clear w hwt m hm] at hh; cases hh
      · rw [(next_other hI hs (Ne.symm hv)).1]
        exact ⟨Nat.le_refl _, fun h => by cases h; exact absurd rfl hv⟩
  obtain ⟨k, hk, hc⟩ := settles (f := fun m => ((σ m).c.log.pc t).evictLeft) (n := K) (fun m hm => (down m hm).1)
  have own : ∀ j, K ≤ j → (σ j).own t = .log .step := by
    intro j hj; unfold XSt.own; rw [tin j (by omega)]; rfl
  obtain ⟨j, hj, ha⟩ := f.goes t k (fun j hj => by
    rw [own j (by omega)]
    have hI := (e.reach j).inv
    have hev := (inv j (by omega)).1
    have h2 := Custom.C92_defined hI.reach t (.act .step)
    have h1 : (σ j).c.next tid t (.act .step) ≠ .blocked := by
      intro hb
      simp only [Custom.CSt.next, tin j (by omega)] at hb
      cases hp : (σ j).c.log.pc t with
      | held w st =>
        rw [hp] at hev
        cases w with
        | evict rest sh =>
          cases rest with
          | nil =>
            simp only [Custom.CSt.step, hp, Custom.CSt.lift, Bool.false_eq_true, if_false, St.next, St.logStep, St.heldStep] at hb
            split at hb <;> first | (cases hb; done) | (rename_i hx; split at hx <;> cases hx)
          | cons u rest =>
            simp only [Custom.CSt.step, hp, Custom.CSt.lift, Bool.false_eq_true, if_false, St.next, St.logStep, St.heldStep] at hb
            split at hb <;> first | (cases hb; done) | (rename_i hx; split at hx <;> cases hx)
        | evictClear u rest sh =>
          simp [Custom.CSt.step, hp, Custom.CSt.lift, St.next, St.logStep, St.heldStep] at hb
        | evictUnlock u rest sh =>
          simp [Custom.CSt.step, hp, Custom.CSt.lift, St.next, St.logStep, St.heldStep] at hb
        | _ => cases hev
      | _ => rw [hp] at hev; cases hev
    cases hc : (σ j).c.next tid t (.act .step) with
    | blocked => exact absurd hc h1
    | ub => exact absurd hc h2
    | «to» c =>
      obtain ⟨y, hy, _⟩ := C100_accepted (e.reach j) (tin j (by omega)) hc (fun n st hp => by
        rw [hp] at hev; cases hev)
      exact ⟨y, hy⟩)
  rw [own j (by omega)] at ha
  have h1 := (down j (by omega)).2 ha
  have h2 := hc j hj
  omega

end Phosphor.LogBuf
