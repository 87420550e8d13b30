import Mathlib.Data.Nat.Pairing
import Verif.Props.LogBufferFair
/-
C101, the other side: fair executions there always are; and with fewer chunks than registered threads a stop may
never come to its end.
-/
namespace Phosphor.TLog
variable {ε : Type} {tid : Nat → Nat} {s s' : St ε} {t u : Nat}

/-- A stop does not get past a thread that holds its chunk lock. -/
theorem evict_waits (hc : Ctl s) {k : Choice ε} (he : (s.pc t).evicting = true) (hp : u ∈ (s.pc t).pending)
    (hh : (s.pc u).holdsSlave = true) (hs : s.next true tid t k = .to s') :
    (s'.pc t).evicting = true ∧ u ∈ (s'.pc t).pending := by
  have hlock := (hc.slave u).2 hh
  have ho := (hc.own t).2 (Pc.evicting_spec _ he).1
  have held : ∀ other, s.heldStep tid t other = .to s' → (s'.pc t).evicting = true ∧ u ∈ (s'.pc t).pending := by
    intro other hs
    have hev := he
    unfold Pc.evicting at hev
    split at hev
    · rename_i rest sh st hq
      rw [hq] at hp
      unfold St.heldStep at hs
      rw [hq] at hs
      cases rest with
      | nil => cases hp
      | cons v rest =>
        dsimp only at hs
        split at hs
        · cases hs
          refine ⟨by rw [goto_pc]; rfl, ?_⟩
          rw [goto_pc]
          simp only [Pc.pending, List.mem_cons] at hp
          simp only [Pc.pending, List.mem_append, List.mem_singleton]
          exact hp.symm
        · split at hs
          · cases hs
            refine ⟨by rw [goto_pc]; rfl, ?_⟩
            rw [goto_pc]; exact hp
          · cases hs
            exact ⟨he, by rw [hq]; exact hp⟩
    · rename_i v rest sh st hq
      have hne : v ≠ u := by
        intro e
        have := (hc.master v).2 (by simp [St.mastered, ho, hq, Pc.mastering])
        rw [e, hlock] at this; cases this
      unfold St.heldStep at hs
      rw [hq] at hs hp
      cases hs
      refine ⟨by rw [goto_pc]; rfl, ?_⟩
      rw [goto_pc]
      rcases List.mem_cons.1 hp with e | hm
      · exact absurd e.symm hne
      · exact hm
    · rename_i v rest sh st hq
      unfold St.heldStep at hs
      rw [hq] at hs hp
      cases hs
      exact ⟨by rw [goto_pc]; rfl, by rw [goto_pc]; exact hp⟩
    · cases hev
  have nolog : ∀ other, s.logStep tid t other = .blocked := by
    intro other
    unfold Pc.evicting at he
    split at he
    · rename_i hp; simp only [St.logStep, hp]
    · rename_i hp; simp only [St.logStep, hp]
    · rename_i hp; simp only [St.logStep, hp]
    · cases he
  have nidle : s.isIdle t = false := by
    unfold St.isIdle; split
    · rename_i hp; rw [hp] at he; cases he
    · rfl
  rcases next_choice nidle (fun st hp => by rw [hp] at he; cases he) hs with rfl | rfl | ⟨b, rfl, rfl⟩
  · simp only [St.next, nolog] at hs; exact held _ hs
  · simp only [St.next, nolog] at hs; exact held _ hs
  · exact ⟨he, hp⟩

end Phosphor.TLog

namespace Phosphor.Custom
open TLog
variable {ε : Type} {tid : Nat → Nat} {c c' : CSt ε} {t u : Nat}

theorem stopping_waits (h : Inv c) (he : (c.log.pc t).evicting = true) (hp : u ∈ (c.log.pc t).pending)
    (hh : (c.log.pc u).holdsSlave = true) {a : Act ε} (hs : c.next tid t a = .to c') :
    (c'.log.pc t).evicting = true ∧ u ∈ (c'.log.pc t).pending := by
  have hin : c.inCall t = none := by
    cases hx : c.inCall t with
    | none => rfl
    | some p =>
      have := (h.inside t p hx).1
      revert he this
      cases hq : c.log.pc t with
      | held w st => cases w <;> simp [insidePc, Pc.evicting]
      | _ => simp [Pc.evicting]
  have nu : ∀ st, c.log.pc t ≠ .held .user st := by intro st hp; rw [hp] at he; cases he
  have lift : ∀ {k : Choice ε}, c.lift (c.log.next true tid t k) = .to c' →
      (c'.log.pc t).evicting = true ∧ u ∈ (c'.log.pc t).pending := by
    intro k hs
    unfold CSt.lift at hs
    split at hs <;> cases hs
    rename_i l hl
    exact evict_waits h.ctl he hp hh hl
  cases a with
  | result r =>
    simp only [CSt.next, CSt.result] at hs
    split at hs
    · rename_i hp; rw [hp] at he; cases he
    · cases hs
  | stats =>
    simp only [CSt.next, CSt.stats] at hs
    cases hs
  | act k =>
    have step : ∀ {sp : Bool}, c.step tid t sp = .to c' → (c'.log.pc t).evicting = true ∧ u ∈ (c'.log.pc t).pending := by
      intro sp hs
      unfold CSt.step at hs
      split at hs
      case h_8 => exact lift hs
      all_goals (rename_i hp; rw [hp] at he; cases he)
    simp only [CSt.next, hin] at hs
    split at hs
    · exact step hs
    · exact step hs
    · unfold CSt.start at hs
      split at hs
      · rename_i hp; exact absurd hp (nu _)
      · cases hs
    · split at hs <;> cases hs
      rename_i l hl
      exact evict_waits h.ctl he hp hh hl
    · simp only [St.next] at hs
      cases hs
    · simp only [St.next] at hs
      cases hs
    · exact lift hs

end Phosphor.Custom

namespace Phosphor.LogBuf
open TLog
variable {ε : Type} {tid : Nat → Nat} {x x' : XSt ε} {t u p o : Nat}

/-- Every reachable state is the beginning of a fair execution. -/
theorem exists_fair (h : Reachable tid x) : ∃ σ act, σ 0 = x ∧ Execution tid σ act ∧ Fair tid σ act := by
  let pick : Nat → Nat := fun n => (Nat.unpair n).1
  let go : XSt ε → Nat → XSt ε := fun y n => match y.next tid (pick n) (y.own (pick n)) with
    | .to z => z
    | _ => y
  let σ : Nat → XSt ε := fun n => Nat.rec x (fun n y => go y n) n
  have hσ : ∀ n, σ (n + 1) = go (σ n) n := fun _ => rfl
  refine ⟨σ, fun n => match (σ n).next tid (pick n) ((σ n).own (pick n)) with
    | .to _ => some (pick n, (σ n).own (pick n))
    | _ => none, rfl, ⟨h, fun n u a ha => ?_, fun n ha => ?_⟩, fun u n hn => ?_, fun u => ⟨0, fun m _ ha => ?_⟩⟩
  · rw [hσ]; simp only [go]
    split at ha <;> cases ha
    assumption
  · rw [hσ]; simp only [go]
    split at ha
    · cases ha
    · rfl
  · have hp : pick (Nat.pair u n) = u := by simp [pick]
    refine ⟨Nat.pair u n, Nat.right_le_pair u n, ?_⟩
    obtain ⟨y, hy⟩ := hn _ (Nat.right_le_pair u n)
    simp only [hp, hy]
  · have hne : ∀ y : XSt ε, y.own u ≠ .access true := by
      intro y; unfold XSt.own; split <;> simp
    split at ha
    · injection ha with ha
      injection ha with h1 h2
      rw [h1] at h2; exact hne _ h2
    · cases ha

/-- Thread `o` is stopping the run and has yet to empty tenant `u`, which waits in `getChunk` of a ring all of whose
chunks are held; nobody else is on the way through `logEvent` or `replaceChunk`. -/
structure Jammed (x : XSt ε) (o u p : Nat) : Prop where
  evicting : (x.c.log.pc o).evicting = true
  pending : u ∈ (x.c.log.pc o).pending
  waits : ∃ e, x.c.log.pc u = .getWait e p
  full : ∃ s, x.buf p = .ring s ∧ ∀ i, i < s.size → ∃ v, Custom.holder x.c.calls p i = some v
  others : ∀ v, v ≠ o → v ≠ u → (x.c.log.pc v).inside = 0

theorem Jammed.next {a : XAct ε} (hr : Reachable tid x) (h : Jammed x o u p) (hs : x.next tid t a = .to x') :
    Jammed x' o u p := by
  have hI := hr.inv
  have hi := hI.inv
  obtain ⟨e, he⟩ := h.waits
  have hin := hi.waits u e p he
  have hbuf := (hi.inside u p hin).2
  have huo : u ≠ o := by rintro rfl; have := h.evicting; rw [he] at this; cases this
  obtain ⟨s, hb, hfull⟩ := h.full
  have hring : ∃ s', x'.buf p = .ring s' ∧ s'.size = s.size := by
    rcases ring_next hI hs hbuf hb with ⟨_, s', _, _, h2, h3⟩ | ⟨_, h2 | ⟨_, s', _, h2, h3⟩⟩
    · exact ⟨s', h2, RingConc.next_size h3⟩
    · exact ⟨s, h2, rfl⟩
    · exact ⟨s', h2, RingConc.next_size h3⟩
  obtain ⟨s', hb', hz⟩ := hring
  by_cases htu : t = u
  · subst htu
    -- the waiting thread gets nothing
    have hc : x'.c = x.c := by
      cases a with
      | log a => simp [XSt.next, hin] at hs
      | stats => simp [XSt.next, hin] at hs
      | access sp =>
        have hs0 := hs
        simp only [XSt.next, hin, XSt.access, he, hb, Buf.step] at hs
        split at hs
        · cases hs
        · cases hs
        · cases hs; rfl
        · rename_i b r hev
          exfalso
          have hr' : ∃ i, r = some i := by
            unfold Buf.ringEv at hev
            split at hev
            · split at hev <;> cases hev
              exact ⟨_, rfl⟩
            · cases hev
            · cases hev
          obtain ⟨i, rfl⟩ := hr'
          have h1 : x.c.next tid t (.result (some i)) = .to x'.c := by
            unfold XSt.back at hs
            split at hs <;> cases hs
            assumption
          have hn : Custom.holder x.c.calls p i = none := by
            simp only [Custom.CSt.next, Custom.CSt.result, he] at h1
            split at h1
            · cases h1
            · rename_i hl
              rw [hi.lent] at hl
              cases hx : Custom.holder x.c.calls p i with
              | none => rfl
              | some v => rw [hx] at hl; exact absurd rfl hl
          have hy : Custom.holder x'.c.calls p i = some t ∧ x'.c.log.buffer = some p := by
            simp only [Custom.CSt.next, Custom.CSt.result, he] at h1
            split at h1
            · cases h1
            · injection h1 with h1
              rw [← h1]
              exact ⟨by simp [Custom.holder], hbuf⟩
          have hI' := (Reachable.step hr hs0).inv
          have hlt := (good_owner (hI'.link p hy.2).good (((hI'.link p hy.2).holds t i).2 hy.1)).1
          rw [hb'] at hlt
          obtain ⟨v, hv⟩ := hfull i (by rw [← hz]; exact hlt)
          rw [hn] at hv; cases hv
        · exfalso
          unfold XSt.back at hs
          split at hs <;> cases hs
          rename_i hl
          simp [Custom.CSt.next, hin, Custom.CSt.leave, he] at hl
    exact ⟨by rw [hc]; exact h.evicting, by rw [hc]; exact h.pending, by rw [hc]; exact h.waits,
      ⟨s', hb', by rw [hc, hz]; exact hfull⟩, by rw [hc]; exact h.others⟩
  · have hu := (next_other hI hs (Ne.symm htu)).1
    by_cases hto : t = o
    · subst hto
      rcases c_next hs with ⟨hc, _⟩ | ⟨A, hc, _⟩
      · exact ⟨by rw [hc]; exact h.evicting, by rw [hc]; exact h.pending, by rw [hc]; exact h.waits,
          ⟨s', hb', by rw [hc, hz]; exact hfull⟩, by rw [hc]; exact h.others⟩
      · obtain ⟨h1, h2⟩ := Custom.stopping_waits hi h.evicting h.pending (by rw [he]; rfl) hc
        refine ⟨h1, h2, ⟨e, by rw [hu]; exact he⟩, ⟨s', hb', fun i hi' => ?_⟩, fun v hv hvu => ?_⟩
        · rw [(Custom.stopping_next hi h.evicting hc).2]; exact hfull i (by rw [← hz]; exact hi')
        · rw [(next_other hI hs hv).1]; exact h.others v hv hvu
    · -- somebody else
      have h0 := h.others t hto htu
      have hnin : x.c.inCall t = none := by
        cases hx : x.c.inCall t with
        | none => rfl
        | some q =>
          exfalso
          have h1 := (hi.inside t q hx).1
          have hm := Custom.no_mutex hi hto h.evicting
          revert h0 h1 hm
          cases x.c.log.pc t with
          | held w st => simp [Pc.holdsMutex]
          | deregBody => simp [Pc.holdsMutex]
          | _ => simp [Custom.insidePc, Pc.inside, Pc.left]
      have main : ∀ A, x.c.next tid t A = .to x'.c → LogStep x.c t x'.c → Jammed x' o u p := by
        intro A hA L
        have P := Custom.passing_next hi hto h.evicting hA
        refine ⟨by rw [P.pc]; exact h.evicting, by rw [P.pc]; exact h.pending, ⟨e, by rw [hu]; exact he⟩,
          ⟨s', hb', fun i hi' => ?_⟩, fun v hv hvu => ?_⟩
        · have hold : Custom.holder x'.c.calls p i = Custom.holder x.c.calls p i := by
            cases L with
            | quiet _ calls => exact holder_same calls p i
            | get e q hq eq => rw [hq] at h0; simp [Pc.inside, Pc.left] at h0
            | ret q j hq eq =>
              exfalso
              have hm := Custom.no_mutex hi hto h.evicting
              revert h0 hq hm
              cases x.c.log.pc t <;> simp [Custom.returning, Pc.inside, Pc.left, Pc.holdsMutex]
            | create n st hq log calls ins => exact holder_same calls p i
          rw [hold]; exact hfull i (by rw [← hz]; exact hi')
        · by_cases hvt : v = t
          · subst hvt
            have h1 := P.away
            rw [Custom.away_zero.2 h0] at h1
            exact Custom.away_zero.1 (by omega)
          · rw [(next_other hI hs hvt).1]; exact h.others v hv hvu
      have key : ∀ {o' : Out (Custom.CSt ε)}, x.logged t o' = .to x' → o' = .to x'.c := by
        intro o' hs
        unfold XSt.logged at hs
        split at hs
        · split at hs <;> cases hs; rfl
        · cases hs
        · cases hs
      cases a with
      | log a =>
        simp only [XSt.next, hnin, if_true] at hs
        have := key hs
        exact main _ this (logStep_act hi hnin this)
      | stats =>
        simp only [XSt.next, hnin, if_true] at hs
        have := key hs
        exact main _ this (logStep_stats this)
      | access sp => simp [XSt.next, hnin] at hs

theorem Jammed.run {l : List (Nat × XAct ε)} (hr : Reachable tid x) (h : Jammed x o u p) (hs : x.run tid l = .to x') :
    Jammed x' o u p := by
  induction l generalizing x with
  | nil => cases hs; exact h
  | cons y l ih =>
    obtain ⟨t, a⟩ := y
    simp only [XSt.run] at hs
    split at hs
    · rename_i y hy; exact ih (.step hr hy) (h.next hr hy) hs
    · cases hs
    · cases hs

/-- A ring of one chunk: thread 1 has it, thread 2 waits for it, thread 0 stops. -/
def jam1 : List (Nat × XAct Nat) := begin1 .ring ++ inb 1 3 ++ go 1 2 ++ [(2, .log (.log 8))] ++ go 2 9 ++ inb 2 1 ++
  [(0, .log .lock), (0, .log (.stop false))]

theorem run_pc {l : List (Nat × XAct ε)} {v : Nat} (hr : Reachable tid x) (hv : ∀ a ∈ l, a.1 ≠ v)
    (hs : x.run tid l = .to x') : x'.c.log.pc v = x.c.log.pc v := by
  induction l generalizing x with
  | nil => cases hs; rfl
  | cons y l ih =>
    obtain ⟨t, a⟩ := y
    simp only [XSt.run] at hs
    split at hs
    · rename_i y hy
      rw [ih (.step hr hy) (fun a ha => hv a (List.mem_cons_of_mem _ ha)) hs]
      exact (next_other hr.inv hy (Ne.symm (hv _ List.mem_cons_self))).1
    · cases hs
    · cases hs

theorem check_run' {l : List (Nat × XAct Nat)} {P : XSt Nat → Bool} (h : check l P = true) :
    ∃ x : XSt Nat, XSt.init.run id l = .to x ∧ P x = true := by
  unfold check at h
  split at h
  · rename_i x hx; exact ⟨x, hx, h⟩
  · cases h

theorem jammed : ∃ x : XSt Nat, Reachable id x ∧ x.c.log.hist.head? = some (.stop false none) ∧ Jammed x 0 2 0 := by
  obtain ⟨x, hx, hp⟩ := check_run' (l := jam1) (P := fun x => x.c.log.hist.head? == some (.stop false none) &&
    (x.c.log.pc 0).evicting && decide (2 ∈ (x.c.log.pc 0).pending) && x.c.log.pc 2 == .getWait 8 0 &&
    (match x.buf 0 with | .ring s => s.size == 1 | .fixed _ => false) && Custom.holder x.c.calls 0 0 == some 1 &&
    (x.c.log.pc 1).inside == 0) (by decide +kernel)
  simp only [Bool.and_eq_true, beq_iff_eq, decide_eq_true_eq] at hp
  obtain ⟨⟨⟨⟨⟨⟨h1, h2⟩, h3⟩, h4⟩, h5⟩, h6⟩, h7⟩ := hp
  refine ⟨x, run_reachable .init _ hx, h1, h2, h3, ⟨8, h4⟩, ?_, fun v hv hv2 => ?_⟩
  · cases hb : x.buf 0 with
    | fixed s => rw [hb] at h5; cases h5
    | ring s =>
      rw [hb] at h5
      have h5 : s.size = 1 := by simpa using h5
      refine ⟨s, rfl, fun i hi => ⟨1, ?_⟩⟩
      have : i = 0 := by omega
      rw [this]; exact h6
  · by_cases h11 : v = 1
    · rw [h11]; exact h7
    have hl : ∀ a ∈ jam1, a.1 ≠ v := by
      have : jam1.all (fun a => decide (a.1 ≤ 2)) = true := by decide +kernel
      intro a ha
      have := of_decide_eq_true (List.all_eq_true.1 this a ha)
      omega
    rw [run_pc .init hl hx]; rfl

/-- C101, what `room` is for: with fewer chunks in the ring than registered threads a stop can wait for a thread that
turns in the loop around `dequeue`, and nothing that any thread does ends that. -/
theorem C101_refuted_room : ∃ x : XSt Nat, Reachable id x ∧ x.c.log.hist.head? = some (.stop false none) ∧
    (x.c.log.pc 0).evicting = true ∧
    ∀ l x', x.run id l = .to x' → (x'.c.log.pc 0).evicting = true ∧ x'.c.log.owner = some 0 := by
  obtain ⟨x, hr, h1, J⟩ := jammed
  refine ⟨x, hr, h1, J.evicting, fun l x' hl => ?_⟩
  have J' := J.run hr hl
  exact ⟨J'.evicting, ((run_reachable hr l hl).inv.inv.ctl.own 0).2 (Pc.evicting_spec _ J'.evicting).1⟩

/-- C101, the same for a fair scheduler: a stop that never comes to its end. -/
theorem C101_refuted_fair : ∃ (σ : Nat → XSt Nat) (act : Nat → Option (Nat × XAct Nat)), Execution id σ act ∧ Fair id σ act ∧
    ∀ n, ((σ n).c.log.pc 0).evicting = true := by
  obtain ⟨x, hr, _, J⟩ := jammed
  obtain ⟨σ, act, h0, e, f⟩ := exists_fair hr
  refine ⟨σ, act, e, f, fun n => Jammed.evicting (u := 2) (p := 0) ?_⟩
  induction n with
  | zero => rw [h0]; exact J
  | succ n ih =>
    cases ha : act n with
    | none => rw [e.rest n ha]; exact ih
    | some a => exact ih.next (e.reach n) (e.step n a.1 a.2 ha)

/-! ### Cases that meet the hypotheses -/

/-- Two threads, a ring of two chunks: thread 1 is in `getChunk` while thread 0 stops. -/
example : ∃ (σ : Nat → XSt Nat) (act : Nat → Option (Nat × XAct Nat)) (s : RingConc.St), Execution id σ act ∧ Fair id σ act ∧
    ((σ 0).c.log.pc 0).evicting = true ∧ (σ 0).c.log.buffer = some 0 ∧ (σ 0).buf 0 = .ring s ∧
    (σ 0).c.log.registered.length ≤ s.size ∧ Inside (σ 0) 0 1 := by
  obtain ⟨x, hr, hp⟩ := check_run (l :=
    [(0, .log .lock), (0, .log (.start { mode := .ring, size := 2 * sizeofTraceChunk }))] ++ go 0 2 ++ [(0, .log .ret)] ++ go 0 1
      ++ [(1, .log (.register []))] ++ go 1 2 ++ [(2, .log (.register []))] ++ go 2 2 ++ logs 1 1 ++
      [(0, .log .lock), (0, .log (.stop false))])
    (P := fun x => (x.c.log.pc 0).evicting && x.c.log.buffer == some 0 &&
      (match x.buf 0 with | .ring s => decide (x.c.log.registered.length ≤ s.size) | .fixed _ => false) &&
      x.c.inCall 1 == some 0 && x.c.log.pc 1 == .getWait 7 0) (by decide +kernel)
  simp only [Bool.and_eq_true, beq_iff_eq] at hp
  obtain ⟨⟨⟨⟨h1, h2⟩, h3⟩, h4⟩, h5⟩ := hp
  obtain ⟨σ, act, h0, e, f⟩ := exists_fair hr
  cases hb : x.buf 0 with
  | fixed s => rw [hb] at h3; cases h3
  | ring s =>
    rw [hb] at h3
    refine ⟨σ, act, s, e, f, ?_⟩
    rw [h0]
    exact ⟨h1, h2, hb, of_decide_eq_true h3, h4, fun st => by rw [h5]; simp⟩

/-- Thread 1 is in `getChunk` of a fixed buffer of one chunk and makes three accesses, while thread 2 is in `getChunk` too. -/
example : ∃ (x y : XSt Nat) (s : FSt), Reachable id x ∧ Inside x 0 1 ∧ x.buf 0 = .fixed s ∧
    x.run id ([(2, .log (.log 8))] ++ go 2 9 ++ inb 1 2 ++ inb 2 1 ++ inb 1 1) = .to y ∧
    3 ≤ accesses 1 ([(2, .log (.log 8))] ++ go 2 9 ++ inb 1 2 ++ inb 2 1 ++ inb 1 1) ∧ y.c.inCall 1 = none := by
  obtain ⟨x, hr, hp⟩ := check_run (l := begin1 .fixed)
    (P := fun x => x.c.inCall 1 == some 0 && x.c.log.pc 1 == .getWait 7 0 &&
      (match x.buf 0 with | .fixed _ => true | .ring _ => false) &&
      (match (x.run id ([(2, .log (.log 8))] ++ go 2 9 ++ inb 1 2 ++ inb 2 1 ++ inb 1 1) : Out (XSt Nat)) with
        | .to y => y.c.inCall 1 == none | _ => false)) (by decide +kernel)
  simp only [Bool.and_eq_true, beq_iff_eq] at hp
  obtain ⟨⟨⟨h1, h2⟩, h3⟩, h4⟩ := hp
  cases hb : x.buf 0 with
  | ring s => rw [hb] at h3; cases h3
  | fixed s =>
    split at h4
    · rename_i y hy
      exact ⟨x, y, s, hr, ⟨h1, fun st => by rw [h2]; simp⟩, hb, hy, by decide +kernel, by simpa using h4⟩
    · cases h4

end Phosphor.LogBuf
