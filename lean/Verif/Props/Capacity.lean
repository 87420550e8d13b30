import Verif.Proof.Capacity
import Verif.Props.TraceLogRingMany
import Verif.Props.TraceLogFull
import Verif.Props.EndToEnd
import Mathlib.Algebra.Order.BigOperators.Group.List
/-
C97: a buffer loses nothing while it has a chunk for every hundred events of every thread.
-/
namespace Phosphor.TLog
variable {ε : Type} {tid : Nat → Nat} {s s' : St ε} {b : Nat}

/-- The number of chunks that `n` events need. -/
def chunksFor (n : Nat) : Nat := (n + chunkSize - 1) / chunkSize

theorem chunksFor_le {k n : Nat} (h : chunkSize * k < n + chunkSize) : k ≤ chunksFor n := by
  have hpos : 0 < chunkSize := by decide
  unfold chunksFor
  rw [Nat.le_div_iff_mul_le hpos, Nat.mul_comm]
  omega

theorem chunksFor_mono {m n : Nat} (h : m ≤ n) : chunksFor m ≤ chunksFor n := by
  unfold chunksFor
  exact Nat.div_le_div_right (by omega)

/-- The index of the chunk of buffer `b` that `u` holds. -/
def St.heldIn (s : St ε) (b u : Nat) : Option Nat :=
  match (s.tenant u).chunk with
  | some (p, i) => if p = b then some i else none
  | none => none

theorem heldIn_iff {u i : Nat} : s.heldIn b u = some i ↔ (s.tenant u).chunk = some (b, i) := by
  unfold St.heldIn
  split
  · rename_i p j hc
    rw [hc]
    by_cases hp : p = b
    · subst hp; simp
    · simp [hp]
  · rename_i hc; simp [hc]

theorem Pc.isStore_event {q : Pc ε} (h : q.isStore = true) : 0 < q.event.toList.length := by
  cases q <;> first | (cases h; done) | simp [Pc.event]

/-- While nobody has been refused or waits, a thread has no more chunks than its events need. -/
theorem Fill.chunks (h : Fill b s) (u : Nat) :
    chunkSize * chunksOf u (s.contents b) < (s.stored b u).length + (s.pc u).event.toList.length + chunkSize := by
  rw [← h.all u]
  refine chunksOf_le _ (s.heldIn b u) _ (fun j evs hj => ?_) (fun j hj hj' => ?_)
  · exact (h.full u j evs hj).imp_left heldIn_iff.2
  · exact Pc.isStore_event (h.fresh u j (heldIn_iff.1 hj) hj')

/-- The chunks of a thread that asks for another one are full. -/
theorem Fill.asks (h : Fill b s) (hr : Reachable true tid s) {u : Nat} {e : ε} (hp : s.pc u = .getDo e b) :
    (s.stored b u).length = chunkSize * chunksOf u (s.contents b) := by
  rw [← h.all u]
  refine chunksOf_full _ (fun p hp' hpu => ?_)
  obtain ⟨j, hj⟩ := List.mem_iff_getElem?.1 hp'
  rcases h.full u j p.2 (by rw [hj, ← hpu]) with hk | hk
  · rw [hr.ctl.noChunk u (by rw [hp]; rfl)] at hk; cases hk
  · exact hk

/-- A thread that asks for a chunk gets one if the events need no more chunks than there are. -/
theorem Fill.room (h : Fill b s) (hr : Reachable true tid s) {T : List Nat} (hT : T.Nodup) (ha : Among T b s) {u : Nat}
    {e : ε} (hp : s.pc u = .getDo e b) {n : Nat → Nat}
    (hn : ∀ v, (s.stored b v).length + (s.pc v).event.toList.length ≤ n v)
    (hsum : (T.map (fun v => chunksFor (n v))).sum ≤ (s.heap b).chunks.length) :
    (s.heap b).counter < (s.heap b).chunks.length := by
  rcases Nat.lt_or_ge (s.heap b).counter (s.heap b).chunks.length with hlt | hge
  · exact hlt
  exfalso
  have hlen := (hr.data.bufs b).length_eq
  have h1 := length_chunksOf hT (s.contents b) ha.owns
  have hu : u ∈ T := ha.logs u (by rw [hp]; rfl)
  have h2 : (T.map (chunksOf · (s.contents b))).sum < (T.map (fun v => chunksFor (n v))).sum := by
    refine List.sum_lt_sum _ _ (fun v _ => ?_) ⟨u, hu, ?_⟩
    · have h3 := h.chunks v
      have h4 := hn v
      exact chunksFor_le (by omega)
    · have h3 := h.asks hr hp
      have h4 := hn u
      rw [hp] at h4
      have h5 : (Pc.getDo e b).event.toList.length = 1 := rfl
      rw [h5] at h4
      refine chunksFor_le ?_
      have : chunkSize * (chunksOf u (s.contents b)).succ = chunkSize * chunksOf u (s.contents b) + chunkSize := Nat.mul_succ _ _
      omega
  omega

/-- In the execution `l` only threads in `T` log, nobody deregisters, and nobody starts or stops
tracing. -/
def OneRun (T : List Nat) (l : List (Nat × Choice ε)) : Prop :=
  ∀ u c, (u, c) ∈ l → (∀ e, c = .log e → u ∈ T) ∧ c ≠ .deregister ∧ (∀ cfg, c ≠ .start cfg) ∧ (∀ sh, c ≠ .stop sh)

theorem OneRun.carries {T : List Nat} {l : List (Nat × Choice ε)} (h : OneRun T l) {u : Nat} {c : Choice ε}
    (hm : (u, c) ∈ l) : c.carriesOn = true := by
  obtain ⟨_, h2, h3, h4⟩ := h u c hm
  cases c <;> first | rfl | exact absurd rfl h2 | exact absurd rfl (h3 _) | exact absurd rfl (h4 _)

theorem Fill.initialised {t u : Nat} {c : Choice ε} (h : Fill b s) (hr : Reachable true tid s)
    (hs : s.next true tid u c = .to s') (hi : (s.tenant t).initialised = true) : (s'.tenant t).initialised = true := by
  have hr' := hr.step hs
  rw [← hr.ctl.reg] at hi
  rw [← hr'.ctl.reg]
  cases next_book hs with
  | calm new hn ha hd hb hst hh hp _ hreg hk => rw [hreg]; exact hi
  | free b hb e => subst e; exact hi
  | retrieve cs st hp he' e => rw [h.en] at he'; cases he'
  | create n st hp e =>
    have := hr.ctl.off u (by rw [hp]; rfl)
    rw [h.en] at this; cases this
  | enable st hp e =>
    subst e
    obtain ⟨q, _, e⟩ := pop_goto s.enable u st
    rw [e]; exact hi
  | reg n hp hi' e =>
    subst e
    show t ∈ (s.registerBody tid u n).registered
    unfold St.registerBody
    split
    · exact hi
    · dsimp only
      split <;> simp [hi]
  | dereg x hp hi hx e => exact absurd hp (h.stays u)

/-- The items are neither stops nor deregistrations. -/
def Uneventful (new : List Item) : Prop := (∀ sh full, Item.stop sh full ∉ new) ∧ ∀ t, Item.deregOk t ∉ new

theorem Fill.history {u : Nat} {c : Choice ε} (h : Fill b s) (hr : Reachable true tid s)
    (hs : s.next true tid u c = .to s') (hc : c.carriesOn = true) (hen : s'.enabled = true) :
    ∃ new, s'.hist = new ++ s.hist ∧ Uneventful new := by
  have same : s'.hist = s.hist → ∃ new, s'.hist = new ++ s.hist ∧ Uneventful new := fun e =>
    ⟨[], e, fun _ _ => List.not_mem_nil, fun _ => List.not_mem_nil⟩
  have one : ∀ i : Item, s'.hist = i :: s.hist → (∀ sh full, i ≠ .stop sh full) → (∀ t, i ≠ .deregOk t) →
      ∃ new, s'.hist = new ++ s.hist ∧ Uneventful new := fun i e h1 h2 =>
    ⟨[i], e, fun _ _ hm => h1 _ _ (List.mem_singleton.1 hm).symm, fun _ hm => h2 _ (List.mem_singleton.1 hm).symm⟩
  have hoff : ∀ {q : Pc ε}, s.pc u = q → q.isOff = true → False := by
    intro q hq ho
    have := hr.ctl.off u (by rw [hq]; exact ho)
    rw [h.en] at this; cases this
  have key : ∀ sp, (match s.logStep tid u sp with
      | .blocked => s.heldStep tid u sp
      | o => o) = .to s' → ∃ new, s'.hist = new ++ s.hist ∧ Uneventful new := by
    intro sp hs
    split at hs
    · unfold St.heldStep at hs
      split at hs
      case h_1 n hp =>
        cases hs
        have : (s.registerBody tid u n).hist = s.hist ∨ ∃ i, (s.registerBody tid u n).hist = i :: s.hist ∧
            (∀ sh full, i ≠ .stop sh full) ∧ ∀ t, i ≠ .deregOk t := by
          unfold St.registerBody
          split
          · right; exact ⟨_, rfl, by simp, by simp⟩
          · dsimp only; split <;> (right; exact ⟨_, rfl, by simp, by simp⟩)
        rcases this with e | ⟨i, e, e1, e2⟩
        · exact same e
        · exact one i e e1 e2
      case h_2 hp => exact absurd hp (h.stays u)
      case h_3 hp => cases hs; exact same rfl
      case h_4 hp => exact (hoff hp rfl).elim
      case h_5 hp => exact (hoff hp rfl).elim
      case h_6 hp => exact (hoff hp rfl).elim
      case h_7 hp => exact (hoff hp rfl).elim
      case h_8 hp => exact (hoff hp rfl).elim
      case h_9 st hp => exact (hoff hp rfl).elim
      case h_10 => cases hs
    · rcases logStep_cases hs with e | e | ⟨f, g, hp, ho, e⟩ | ⟨f, g, hp, _, e⟩ | ⟨f, g, hp, _, he, e⟩
      · exact same (by rw [e])
      · exact same e.hist
      · exact same (by rw [e]; rfl)
      · exact same (by rw [e]; rfl)
      · rw [e] at hen; cases hen
  cases c with
  | step => exact key false hs
  | spurious => exact key true hs
  | log e =>
    simp only [St.next] at hs
    split at hs <;> cases hs
    exact same rfl
  | lock =>
    simp only [St.next] at hs
    split at hs <;> cases hs
    exact same rfl
  | register n =>
    simp only [St.next] at hs
    split at hs <;> cases hs
    exact same rfl
  | deregister => cases hc
  | free a =>
    simp only [St.next] at hs
    split at hs <;> cases hs
    exact same rfl
  | start cfg => cases hc
  | stop sh => cases hc
  | getBuffer =>
    simp only [St.next] at hs
    split at hs
    · rw [if_pos h.en] at hs
      cases hs
      exact one .refuse rfl (by simp) (by simp)
    · cases hs
  | getTraceContext =>
    simp only [St.next] at hs
    split at hs
    · rw [if_pos h.en] at hs
      cases hs
      exact one .refuse rfl (by simp) (by simp)
    · cases hs
  | ret =>
    simp only [St.next] at hs
    split at hs
    · rename_i st _
      obtain ⟨q, _, e⟩ := pop_goto s u st
      cases hs
      exact same (by rw [e]; rfl)
    · cases hs
  | throw =>
    simp only [St.next] at hs
    split at hs
    · cases hs
      refine same ?_
      rw [unwind_eq]
      split <;> rfl
    · cases hs

/-- What thread `t` has stored and has in hand after `l`, if it is registered. -/
def Keeps (b t : Nat) (l : List (Nat × Choice ε)) (s s' : St ε) : Prop :=
  (s'.tenant t).initialised = true ∧
    s'.stored b t ++ (s'.pc t).event.toList = s.stored b t ++ (s.pc t).event.toList ++ logged t l

/-- Either nobody is refused a chunk, or the execution has a first moment at which a thread asks
for a chunk of the full buffer. -/
theorem Fill.run {T : List Nat} {l : List (Nat × Choice ε)} (h : Fill b s) (ha : Among T b s)
    (hr : Reachable true tid s) (hs : s.run true tid l = .to s') (hl : OneRun T l) :
    (Fill b s' ∧ Among T b s' ∧ (∀ t, (s.tenant t).initialised = true → Keeps b t l s s') ∧
      ∃ new, s'.hist = new ++ s.hist ∧ Uneventful new) ∨
    ∃ l1 l2 s1 u e, l = l1 ++ l2 ∧ s.run true tid l1 = .to s1 ∧ s1.run true tid l2 = .to s' ∧ Fill b s1 ∧
      Among T b s1 ∧ s1.pc u = .getDo e b ∧ (s1.heap b).counter = (s1.heap b).chunks.length := by
  induction l generalizing s with
  | nil =>
    cases hs
    exact Or.inl ⟨h, ha, fun t ht => ⟨ht, by simp [logged]⟩, [], rfl, fun _ _ => List.not_mem_nil, fun _ => List.not_mem_nil⟩
  | cons p l ih =>
    obtain ⟨u, c⟩ := p
    by_cases hx : ∃ e, s.pc u = .getDo e b ∧ (s.heap b).counter = (s.heap b).chunks.length
    · obtain ⟨e, h1, h2⟩ := hx
      exact Or.inr ⟨[], _, s, u, e, rfl, rfl, hs, h, ha, h1, h2⟩
    · simp only [St.run] at hs
      split at hs
      · rename_i s1 h1
        have hc := hl.carries (u := u) (c := c) (by simp)
        have hb := (buffer_keep hr h1 h.en).1
        have hlast := hr.ctl.last b h.buf
        have h2 : Fill b s1 := h.next hr h1 hc hb (fun e he => by
          have := h.count
          rcases Nat.lt_or_ge (s.heap b).counter (s.heap b).chunks.length with hlt | hge
          · exact hlt
          · exact absurd ⟨e, he, by omega⟩ hx)
        have hlu := hl u c (by simp)
        have h3 : Among T b s1 := ha.next (by omega) h1 hlu.1 hlu.2.1
        rcases ih h2 h3 (hr.step h1) hs (fun v d hm => hl v d (List.mem_cons_of_mem _ hm)) with
          ⟨g1, g2, g3, n2, g4, g5⟩ | ⟨l1, l2, s2, v, e, g1, g2, g3, g4⟩
        · obtain ⟨n1, q1, q2⟩ := h.history hr h1 hc h2.en
          refine Or.inl ⟨g1, g2, fun t ht => ?_, n2 ++ n1, by rw [g4, q1, List.append_assoc], fun a f hm => ?_, fun t hm => ?_⟩
          rotate_left
          · rcases List.mem_append.1 hm with hm | hm
            · exact g5.1 _ _ hm
            · exact q2.1 _ _ hm
          · rcases List.mem_append.1 hm with hm | hm
            · exact g5.2 _ hm
            · exact q2.2 _ hm
          have hi := h.initialised hr h1 ht
          obtain ⟨k1, k2⟩ := g3 t hi
          have step := complete_step (t := t) hr.hist hr.ctl0 hr.data h1 (by rw [← hr.hist.en]; exact h.en)
            (by rw [← hr.hist.reg]; exact ht) h.buf (Or.inr h2.count)
          refine ⟨k1, ?_⟩
          rw [k2, step]
          simp [logged]
        · refine Or.inr ⟨(u, c) :: l1, l2, s2, v, e, by rw [g1]; rfl, ?_, g3, g4⟩
          simp only [St.run, h1]; exact g2
      · cases hs
      · cases hs

/-- The run has begun. -/
theorem Fill.begins (h : Reachable true tid s) {o : Nat} {st : List Frame} (hp : s.pc o = .held .startEnable st)
    (hb : s.buffer = some b) {T : List Nat} (hq : ∀ u, u ∉ T → (s.pc u).logging = false) :
    ∃ s1, s.next true tid o .step = .to s1 ∧ Reachable true tid s1 ∧ Fill b s1 ∧ Among T b s1 ∧
      (∀ t, s1.stored b t = []) ∧ (∀ t, (s1.pc t).event = (s.pc t).event) ∧ (∀ t, s1.tenant t = s.tenant t) ∧
      (s1.heap b).chunks.length = s.config.size / sizeofTraceChunk ∧ (s1.heap b).mode = s.config.mode := by
  have hs : s.next true tid o .step = .to (s.enable.pop o st) := by
    simp [St.next, St.logStep, St.heldStep, hp]
  have hr1 := h.step hs
  have hen : (s.pc o).isEnable = true := by rw [hp]; rfl
  obtain ⟨q, hq', e⟩ := pop_goto s.enable o st
  have hlast := h.ctl.last b hb
  have hgen := h.ctl.gen
  have hnb : s.nextBuf - 1 = b := by omega
  have hcont : s.contents b = [] := by have := fresh_contents h o hen; rw [hnb] at this; exact this
  have hst : ∀ t, s.stored b t = [] := by
    have := fresh_stored h o hen
    rw [hnb] at this
    intro t; rw [this]
  have hq2 : q.logging = false ∧ q ≠ .deregBody ∧ q.returning = false ∧ q.refusedBy = none ∧ q.event = none := by
    have : (s.enable.pop o st).pc o = q := by rw [e, goto_pc]
    have h2 : ((s.enable.pop o st).pc o).logging = false ∧ (s.enable.pop o st).pc o ≠ .deregBody ∧
        ((s.enable.pop o st).pc o).returning = false ∧ ((s.enable.pop o st).pc o).refusedBy = none ∧
        ((s.enable.pop o st).pc o).event = none := by
      unfold St.pop
      split <;> rw [goto_pc] <;> simp [Pc.logging, Pc.returning, Pc.refusedBy, Pc.event]
    rw [this] at h2; exact h2
  have hitem : Item.run b s.config ∈ (s.enable.pop o st).hist := by
    rw [e, ← hnb]
    show Item.run (s.nextBuf - 1) s.config ∈ Item.run (s.nextBuf - 1) s.config :: s.hist
    simp
  obtain ⟨z1, z2, z3, z4⟩ := C15_size hr1 hitem
  have hh1 : (s.enable.pop o st).heap = s.heap := by rw [e]; rfl
  rw [hh1] at z1 z2 z3 z4
  have hsize : (s.heap b).chunks.length = s.config.size / sizeofTraceChunk := by
    have hpos : 0 < sizeofTraceChunk := by decide
    refine Nat.le_antisymm ((Nat.le_div_iff_mul_le hpos).2 z2) ?_
    exact Nat.le_of_lt_succ ((Nat.div_lt_iff_lt_mul hpos).2 z3)
  have hnone : ∀ u i, (s.tenant u).chunk ≠ some (b, i) := by
    intro u i hc
    obtain ⟨evs, hi⟩ := h.data.owns u b i hc
    rw [hcont] at hi; cases hi
  have hown : s.owner = some o := (h.ctl.own o).2 (by rw [hp]; rfl)
  have hoff : s.enabled = false := h.ctl.off o (by rw [hp]; rfl)
  have hpc : ∀ u, u ≠ o → (s.enable.pop o st).pc u = s.pc u := by
    intro u hu; rw [e, goto_other _ _ _ _ hu]; rfl
  have hstays : ∀ u, (s.enable.pop o st).pc u ≠ .deregBody := by
    intro u hu
    by_cases huo : u = o
    · subst huo; rw [e, goto_pc] at hu; exact hq2.2.1 hu
    · rw [hpc u huo] at hu
      have h1 := (h.ctl.own u).2 (by rw [hu]; rfl)
      rw [hown] at h1
      cases h1
      exact huo rfl
  refine ⟨_, hs, hr1, ?_, ?_, ?_, ?_, ?_, ?_, ?_⟩
  · refine ⟨by rw [e]; rfl, by rw [e]; exact hb, ?_, ?_, ?_, ?_, ?_, ?_, ?_, hstays⟩
    · rw [hh1]
      have := (h.data.bufs b).length_eq
      rw [hcont] at this
      simp at this
      omega
    · intro u i evs hi
      rw [e] at hi
      replace hi : (s.contents b)[i]? = some (u, evs) := hi
      rw [hcont] at hi; cases hi
    · intro u i evs _ _ hi
      rw [e] at hi
      replace hi : (s.contents b)[i]? = some (u, evs) := hi
      rw [hcont] at hi; cases hi
    · intro u i _ hi
      rw [e] at hi
      replace hi : (s.contents b)[i]? = some (u, []) := hi
      rw [hcont] at hi; cases hi
    · intro u i _ j v evs hj
      rw [e] at hj
      replace hj : (s.contents b)[j]? = some (v, evs) := hj
      rw [hcont] at hj; cases hj
    · intro u
      rw [e]
      show eventsOf u (s.contents b) = s.stored b u
      rw [hcont, hst]; rfl
    · intro u hu
      by_cases huo : u = o
      · subst huo; rw [e, goto_pc, hq2.2.2.2.1] at hu; cases hu
      · rw [hpc u huo] at hu
        have key : ∀ q, s.pc u = q → q.refusedBy = some b → False := by
          intro q hq hf
          cases q with
          | getWait e p =>
            have := h.ctl.comm u (Or.inr (by rw [hq]; rfl))
            rw [hoff] at this
            simp [St.pend, hown, hp, Pc.pending] at this
          | failed f =>
            have := h.ctl.comm u (Or.inr (by rw [hq]; rfl))
            rw [hoff] at this
            simp [St.pend, hown, hp, Pc.pending] at this
          | failUnlock f g =>
            cases hf
            have h1 := h.ctl.gFull u b g (by rw [hq]; rfl)
            have h2 := h.ctl.gEnable u (some b) g o (by rw [hq]; rfl) hen
            omega
          | tryMutex f g =>
            cases hf
            have h1 := h.ctl.gFull u b g (by rw [hq]; rfl)
            have h2 := h.ctl.gEnable u (some b) g o (by rw [hq]; rfl) hen
            omega
          | compare f g =>
            cases hf
            have h1 := h.ctl.gFull u b g (by rw [hq]; rfl)
            have h2 := h.ctl.gEnable u (some b) g o (by rw [hq]; rfl) hen
            omega
          | _ => cases hf
        exact key _ rfl hu
  · refine ⟨fun u hu => ?_, ?_, hstays⟩
    · by_cases huo : u = o
      · subst huo; rw [e, goto_pc, hq2.1] at hu; cases hu
      · rw [hpc u huo] at hu
        apply Classical.byContradiction
        intro hT
        rw [hq u hT] at hu; cases hu
    · rw [e]
      show ∀ p ∈ s.contents b, p.1 ∈ T
      rw [hcont]; simp
  · rw [e]; exact hst
  · intro t
    by_cases hto : t = o
    · subst hto; rw [e, goto_pc, hq2.2.2.2.2, hp]; rfl
    · rw [hpc t hto]
  · rw [e]; exact fun _ => rfl
  · rw [hh1]; exact hsize
  · rw [hh1]; exact z4

/-- C97: a run in either mode begins with threads `T` registered or not, possibly amid calls of
`logEvent`; from then on only these threads log, and nobody deregisters, starts or stops. If the
size of the configuration has room for one chunk per hundred events of each thread, rounded up
per thread, then at any later moment tracing is on, nobody has been refused a chunk or waits for
one, and a reading of the buffer yields of every thread that was registered exactly the events that
it has logged, in order (but for the one that it is about to store). -/
theorem C97_enough (hinj : ∀ u v, tid u = tid v → u = v) (h : Reachable true tid s) {o : Nat} {st : List Frame}
    (hp : s.pc o = .held .startEnable st) (hb : s.buffer = some b) {T : List Nat}
    (hT : T.Nodup) (hq : ∀ u, u ∉ T → (s.pc u).logging = false)
    {l : List (Nat × Choice ε)} (hr : s.run true tid ((o, .step) :: l) = .to s') (hl : OneRun T l)
    (hsum : (T.map (fun t => chunksFor (((s.pc t).event.toList ++ logged t l).length))).sum ≤ s.config.size / sizeofTraceChunk) :
    s'.enabled = true ∧ s'.buffer = some b ∧ (∀ u, (s'.pc u).refusedBy ≠ some b) ∧
    ∃ evs, Reads (s'.heap b) evs ∧ ∀ t, (s.tenant t).initialised = true →
      ofId (tid t) evs ++ (s'.pc t).event.toList = (s.pc t).event.toList ++ logged t l := by
  obtain ⟨s1, h1, hr1, hf, ha, hst, hev, hten, hlen, hmode⟩ := Fill.begins h hp hb hq
  simp only [St.run, h1] at hr
  rcases hf.run ha hr1 hr hl with ⟨g1, g2, g3, _⟩ | ⟨l1, l2, s2, u, e, rfl, g2, g3, g4, g5, g6, g7⟩
  · refine ⟨g1.en, g1.buf, g1.nobody, ?_⟩
    refine ⟨_, C19_iterate _ _ ((run_reachable hr1 hr).data.bufs b).holds, fun t ht => ?_⟩
    rw [ofId_flatEvents hinj, g1.all, (g3 t (by rw [hten]; exact ht)).2, hst, hev, List.nil_append]
  · exfalso
    have hlast := hr1.ctl.last b hf.buf
    have := g4.room (run_reachable hr1 g2) hT g5 g6
      (n := fun t => ((s.pc t).event.toList ++ logged t (l1 ++ l2)).length) (fun v => ?_) ?_
    · omega
    · have hsub := (C34_subsequence (t := v) hr1 g2 (b := b) (by omega)).length_le
      rw [hst, hev, List.nil_append] at hsub
      simp only [List.length_append, logged_append] at hsub ⊢
      omega
    · rw [(run_counter hr1 (b := b) (by omega) g2).2.1, hlen]; exact hsum

/-- C97, at the end of the line: the file that the stopped callback of a run in fixed mode saves, whenever it is
called after `l1`, lists for every thread that was registered, is between calls when the run begins
and after `l1`, and logs nothing afterwards exactly the events that it logged, in order. -/
theorem C97_file {s s1 s2 : St Event} (hinj : ∀ u v, tid u = tid v → u = v) (h : Reachable true tid s) {o : Nat}
    {st : List Frame} (hp : s.pc o = .held .startEnable st) (hb : s.buffer = some b) (hm : s.config.mode = .fixed)
    {T : List Nat} (hT : T.Nodup) (hq : ∀ u, u ∉ T → (s.pc u).logging = false)
    {l1 l2 : List (Nat × Choice Event)} (hr1 : s.run true tid ((o, .step) :: l1) = .to s1) (hl : OneRun T l1)
    (hsum : (T.map (fun t => chunksFor (((s.pc t).event.toList ++ logged t l1).length))).sum ≤ s.config.size / sizeofTraceChunk)
    (hr2 : s1.run true tid l2 = .to s2)
    (hrep : ∀ u e, Offered s (l1 ++ l2) u e → Representable e)
    (pid : Int) (ctx : TraceContext) (hctx : ctx.buffer = some (s2.heap b))
    (hnames : ∀ a ∈ ctx.threadNames, NameRepresentable a)
    (env : FileEnv) (ho : env.canOpen = true) (ha : ∀ n s, s.length ≤ env.accepts n s)
    (hk : ∀ s, s.length ≤ env.keeps s) :
    ∃ file vs, (∀ fuel, file.length < fuel → fileStop pid env fuel ctx = some (.ok (), some file)) ∧
      Lists pid ctx.threadNames vs file ∧
      ∀ t, t ≠ o → (s.pc t).event = none → isReg t s.hist = true → (s1.pc t).event = none → logged t l2 = [] →
        List.Forall₂ (fun e v => EventDenotes e pid (BitVec.ofNat 32 (tid t)) v) (logged t l1)
          (objectsOf (tid t) vs) := by
  obtain ⟨s0, h1, hr0, hf, hamong, hst, hev, hten, hlen, hmode⟩ := Fill.begins h hp hb hq
  have hr1' := hr1
  simp only [St.run, h1] at hr1'
  rcases hf.run hamong hr0 hr1' hl with ⟨g1, g2, g3, new, g4, g5⟩ | ⟨k1, k2, s3, u, e, rfl, g2, g3, g4, g5, g6, g7⟩
  · have hs0 : s0.hist = .run b s.config :: s.hist := by
      have hs' : s.next true tid o .step = .to (s.enable.pop o st) := by
        simp [St.next, St.logStep, St.heldStep, hp]
      rw [h1] at hs'
      cases hs'
      obtain ⟨q, _, e⟩ := pop_goto s.enable o st
      have hlast := h.ctl.last b hb
      rw [e]
      show Item.run (s.nextBuf - 1) s.config :: s.hist = _
      rw [show s.nextBuf - 1 = b by omega]
    obtain ⟨file, vs, z1, z2, _, z4⟩ := C69_file hinj h hp hr1 (new := new) (b := b) (cfg := s.config)
      (by rw [g4, hs0]) hr2 hrep pid ctx hctx hnames env ho ha hk
    refine ⟨file, vs, z1, z2, fun t hto hi hreg hi1 hlog => z4 g5.1 g1.count ?_ t hto hi hreg (g5.2 t) hi1 hlog⟩
    have hr' := run_reachable hr0 hr1'
    have hl0 := hr0.ctl.last b hf.buf
    have hl1 := hr'.ctl.last b g1.buf
    rw [(run_counter hr' (b := b) (by omega) hr2).2.2, (run_counter hr0 (b := b) (by omega) hr1').2.2, hmode, hm]
    simp
  · exfalso
    have hlast := hr0.ctl.last b hf.buf
    have := g4.room (run_reachable hr0 g2) hT g5 g6
      (n := fun t => ((s.pc t).event.toList ++ logged t (k1 ++ k2)).length) (fun v => ?_) ?_
    · omega
    · have hsub := (C34_subsequence (t := v) hr0 g2 (b := b) (by omega)).length_le
      rw [hst, hev, List.nil_append] at hsub
      simp only [List.length_append, logged_append] at hsub ⊢
      omega
    · rw [(run_counter hr0 (b := b) (by omega) g2).2.1, hlen]; exact hsum

theorem flat_length {T : List Nat} (hT : T.Nodup) (cont : List (Nat × List ε)) (h : ∀ p ∈ cont, p.1 ∈ T) :
    (flatEvents (tagged tid cont)).length = (T.map (fun t => (eventsOf t cont).length)).sum := by
  induction cont with
  | nil =>
    have : ∀ T : List Nat, (T.map (fun t => (eventsOf t ([] : List (Nat × List ε))).length)).sum = 0 := by
      intro T; induction T with
      | nil => rfl
      | cons u T ih => rw [List.map_cons, List.sum_cons, ih]; rfl
    rw [this]; rfl
  | cons p l ih =>
    have ih := ih (fun q hq => h q (List.mem_cons_of_mem _ hq))
    have hp := h p (by simp)
    have key : ∀ T : List Nat, T.Nodup → (T.map (fun t => (eventsOf t (p :: l)).length)).sum =
        (T.map (fun t => (eventsOf t l).length)).sum + if p.1 ∈ T then p.2.length else 0 := by
      intro T
      induction T with
      | nil => simp
      | cons u T ihT =>
        intro hn
        have hn' := List.nodup_cons.1 hn
        have := ihT hn'.2
        simp only [List.map_cons, List.sum_cons, this]
        by_cases hu : p.1 = u
        · subst hu
          simp [eventsOf, hn'.1]; omega
        · simp [eventsOf, hu]; omega
    have hfl : flatEvents (tagged tid (p :: l)) = p.2.map (fun e => (e, tid p.1)) ++ flatEvents (tagged tid l) := by
      simp [flatEvents, tagged]
    rw [key T hT, if_pos hp, hfl, List.length_append, List.length_map, ih]; omega

theorem sum_slack {c : Nat} {k n : Nat → Nat} {T : List Nat} (h : ∀ v ∈ T, c * k v ≤ n v + c) :
    c * (T.map k).sum ≤ (T.map n).sum + c * T.length := by
  induction T with
  | nil => simp
  | cons v T ih =>
    have h1 := ih (fun w hw => h w (List.mem_cons_of_mem _ hw))
    have h2 := h v (by simp)
    simp only [List.map_cons, List.sum_cons, List.length_cons, Nat.mul_add, Nat.mul_one]
    omega

theorem sum_slack_one {c u : Nat} {k n : Nat → Nat} {T : List Nat} (h : ∀ v ∈ T, c * k v ≤ n v + c) (hu : u ∈ T)
    (hk : c * k u ≤ n u) : c * (T.map k).sum + c ≤ (T.map n).sum + c * T.length := by
  induction T with
  | nil => cases hu
  | cons v T ih =>
    have h2 := h v (by simp)
    simp only [List.map_cons, List.sum_cons, List.length_cons, Nat.mul_add, Nat.mul_one]
    rcases List.mem_cons.1 hu with rfl | hu
    · have h1 := sum_slack (c := c) (k := k) (n := n) (T := T) (fun w hw => h w (List.mem_cons_of_mem _ hw))
      omega
    · have h1 := ih (fun w hw => h w (List.mem_cons_of_mem _ hw)) hu
      omega

theorem Among.run {T : List Nat} {l : List (Nat × Choice ε)} (h : Among T b s) (hb : b < s.nextBuf)
    (hs : s.run true tid l = .to s') (hl : OnlyLoggers T l) : Among T b s' := by
  induction l generalizing s with
  | nil => cases hs; exact h
  | cons p l ih =>
    obtain ⟨u, c⟩ := p
    simp only [St.run] at hs
    split at hs
    · rename_i s1 h1
      have h2 := hl u c (by simp)
      have h3 := nextBuf_mono h1
      exact ih (h.next hb h1 h2.1 h2.2) (by omega) hs (fun v d hm => hl v d (List.mem_cons_of_mem _ hm))
    · cases hs
    · cases hs

theorem stored_mono {l : List (Nat × Choice ε)} (hb : b < s.nextBuf) (hs : s.run true tid l = .to s') (t : Nat) :
    (s.stored b t).length ≤ (s'.stored b t).length := by
  induction l generalizing s with
  | nil => cases hs; exact Nat.le_refl _
  | cons p l ih =>
    obtain ⟨u, c⟩ := p
    simp only [St.run] at hs
    split at hs
    · rename_i s1 h1
      have h3 := nextBuf_mono h1
      refine Nat.le_trans ?_ (ih (by omega) hs)
      rcases C48_stored h1 b t hb with e | ⟨_, e, _, e', _⟩
      · rw [e]
      · rw [e']; simp
    · cases hs
    · cases hs

/-- C97: what a fixed buffer of `N` chunks holds at least when it has brought about the end of the
run, or has refused a thread: `N + 1 - |T|` chunks full of events, in whatever way the events are
spread over the threads. -/
theorem C97_least (h : Reachable true tid s) {o : Nat} {st : List Frame}
    (hp : s.pc o = .held .startEnable st) (hb : s.buffer = some b) (hm : s.config.mode = .fixed) {T : List Nat}
    (hT : T.Nodup) (hq : ∀ u, u ∉ T → (s.pc u).logging = false)
    {l : List (Nat × Choice ε)} (hr : s.run true tid ((o, .step) :: l) = .to s') (hl : OneRun T l)
    (hend : s'.enabled = false ∨ ∃ u, (s'.pc u).refusedBy = some b) :
    ∃ evs, Reads (s'.heap b) evs ∧ (s.config.size / sizeofTraceChunk + 1 - T.length) * chunkSize ≤ evs.length := by
  obtain ⟨s1, h1, hr1, hf, ha, hst, hev, hten, hlen, hmode⟩ := Fill.begins h hp hb hq
  simp only [St.run, h1] at hr
  have hlast := hr1.ctl.last b hf.buf
  rcases hf.run ha hr1 hr hl with ⟨g1, g2, g3, _⟩ | ⟨l1, l2, s2, u, e, hll, g2, g3, g4, g5, g6, g7⟩
  · rcases hend with he | ⟨u, he⟩
    · rw [g1.en] at he; cases he
    · exact absurd he (g1.nobody u)
  · have hr' := run_reachable hr1 hr
    have hr2 := run_reachable hr1 g2
    have ha' := ha.run (by omega) hr (fun v c hm => ⟨(hl v c hm).1, (hl v c hm).2.1⟩)
    refine ⟨_, C19_iterate _ _ (hr'.data.bufs b).holds, ?_⟩
    rw [flat_length hT _ ha'.owns]
    have hlt2 := hr2.ctl.last b g4.buf
    have hmode' : (s'.heap b).mode ≠ .ring := by
      rw [(run_counter hr1 (b := b) (by omega) hr).2.2, hmode, hm]; simp
    have hge : (T.map (fun t => (s2.stored b t).length)).sum ≤ (T.map (fun t => (eventsOf t (s'.contents b)).length)).sum := by
      refine List.sum_le_sum (fun t _ => ?_)
      rw [hr'.data.fixedStored b t hmode']
      exact stored_mono (by omega) g3 t
    have hu : u ∈ T := g5.logs u (by rw [g6]; rfl)
    have hcnt := length_chunksOf hT (s2.contents b) g5.owns
    have hlen2 := (hr2.data.bufs b).length_eq
    rw [g7, Nat.min_self, (run_counter hr1 (b := b) (by omega) g2).2.1, hlen] at hlen2
    have key := sum_slack_one (c := chunkSize) (k := (chunksOf · (s2.contents b))) (n := fun t => (s2.stored b t).length)
      (T := T) (u := u) (fun v _ => ?_) hu (Nat.le_of_eq (g4.asks hr2 g6).symm)
    · rw [← hcnt, hlen2] at key
      generalize s.config.size / sizeofTraceChunk = N at key ⊢
      have : (N + 1 - T.length) * chunkSize = chunkSize * N + chunkSize - chunkSize * T.length := by
        rw [Nat.sub_mul, Nat.add_mul, Nat.one_mul, Nat.mul_comm, Nat.mul_comm T.length]
      omega
    · have h3 := g4.chunks v
      have h4 : (s2.pc v).event.toList.length ≤ 1 := by
        cases (s2.pc v).event <;> simp
      omega

/-! ### Two threads, two chunks -/

/-- Thread 1 fills a chunk and thread 2 logs one event into the other. -/
def filling : List (Nat × Choice Nat) :=
  logs 1 0 11 ++ (List.range 99).flatMap (fun i => logs 1 (i + 1) 6) ++ logs 2 50 11

/-- Thread 0 returns from its call, and thread 1 logs one event more. -/
def spilling : List (Nat × Choice Nat) := (0, .ret) :: (0, .step) :: filling ++ logs 1 100 20

theorem filling_oneRun : OneRun [1, 2] filling := by
  intro u c hm
  simp only [filling, logs, steps, List.mem_append, List.mem_cons, List.mem_flatMap, List.mem_replicate] at hm
  rcases hm with (hm | ⟨i, _, hm⟩) | hm <;>
    (rcases hm with hm | ⟨_, hm⟩ <;> cases hm <;> exact ⟨by simp, by simp, by simp, by simp⟩)

theorem spilling_oneRun : OneRun [1, 2] spilling := by
  intro u c hm
  rcases List.mem_append.1 hm with hm | hm
  · rcases List.mem_cons.1 hm with hm | hm
    · cases hm; exact ⟨by simp, by simp, by simp, by simp⟩
    · rcases List.mem_cons.1 hm with hm | hm
      · cases hm; exact ⟨by simp, by simp, by simp, by simp⟩
      · exact filling_oneRun u c hm
  · simp only [logs, steps, List.mem_cons, List.mem_replicate] at hm
    rcases hm with hm | ⟨_, hm⟩ <;> cases hm <;> exact ⟨by simp, by simp, by simp, by simp⟩

/-- A run with two chunks is about to begin, two threads are registered. -/
def begin2 : List (Nat × Choice Nat) :=
  registers 1 ['a'] ++ registers 2 ['b'] ++ [(0, .lock), (0, .start fixed2), (0, .step)]

theorem begin2_state : ∃ s : St Nat, St.init.run true (· + 100) begin2 = .to s ∧ s.pc 0 = .held .startEnable [.resumeUser] ∧
    s.buffer = some 0 ∧ s.config = fixed2 ∧ (∀ u, u ∉ [1, 2] → (s.pc u).logging = false) ∧
    s.pc 1 = .idle ∧ s.pc 2 = .idle ∧ (s.tenant 1).initialised = true ∧ (s.tenant 2).initialised = true := by
  obtain ⟨s, h3, h4⟩ := check_run (pol := true) (tid := (· + 100)) (p := fun s =>
      s.pc 0 == .held .startEnable [.resumeUser] && s.buffer == some 0 && s.config == fixed2 && s.pc 1 == .idle &&
      s.pc 2 == .idle && (s.tenant 1).initialised && (s.tenant 2).initialised)
    (l := begin2) (by decide +kernel)
  simp only [Bool.and_eq_true, beq_iff_eq] at h4
  obtain ⟨⟨⟨⟨⟨⟨k1, k2⟩, k3⟩, k4⟩, k5⟩, k6⟩, k7⟩ := h4
  refine ⟨s, h3, k1, k2, k3, fun u hu => ?_, k4, k5, k6, k7⟩
  by_cases h0 : u = 0
  · subst h0; rw [k1]; rfl
  · simp at hu
    rw [run_pc_away h3 (u := u) (by simp [begin2, registers, steps]; omega)]
    rfl

/-- The bound is met in a ring as well. -/
def begin2r : List (Nat × Choice Nat) :=
  registers 1 ['a'] ++ registers 2 ['b'] ++ [(0, .lock), (0, .start ring2), (0, .step)]

/-- Two chunks are enough for 100 events of thread 1 and one of thread 2: the hypotheses of
`C97_enough` hold, and what it says is what happens. -/
example : ∃ s s' : St Nat, Reachable true (· + 100) s ∧ s.pc 0 = .held .startEnable [.resumeUser] ∧ s.buffer = some 0 ∧
    s.config.mode = .fixed ∧ (∀ u, u ∉ [1, 2] → (s.pc u).logging = false) ∧
    s.run true (· + 100) ((0, .step) :: filling) = .to s' ∧ OneRun [1, 2] filling ∧
    ([1, 2].map (fun t => chunksFor (((s.pc t).event.toList ++ logged t filling).length))).sum ≤ s.config.size / sizeofTraceChunk ∧
    s'.stored 0 1 = List.range 100 ∧ s'.stored 0 2 = [50] := by
  obtain ⟨s, h1, h2, h3, h4, h5, h6, h7, _, _⟩ := begin2_state
  obtain ⟨s', g1, g2⟩ := check_run (pol := true) (tid := (· + 100)) (p := fun s =>
      s.stored 0 1 == List.range 100 && s.stored 0 2 == [50])
    (l := begin2 ++ (0, .step) :: filling) (by decide +kernel)
  simp only [Bool.and_eq_true, beq_iff_eq] at g2
  rw [run_split h1] at g1
  refine ⟨s, s', run_reachable .init h1, h2, h3, by rw [h4]; rfl, h5, g1, filling_oneRun, ?_, g2.1, g2.2⟩
  rw [h4]
  simp only [List.map_cons, List.map_nil, h6, h7]
  decide +kernel

/-- The same in a ring, where one event more makes thread 1 overwrite what it logged first. -/
example : ∃ s s' s'' : St Nat, Reachable true (· + 100) s ∧ s.pc 0 = .held .startEnable [.resumeUser] ∧ s.buffer = some 0 ∧
    s.config.mode = .ring ∧ s.run true (· + 100) ((0, .step) :: filling) = .to s' ∧
    s'.contents 0 = [(1, List.range 100), (2, [50])] ∧
    s.run true (· + 100) ((0, .step) :: (filling ++ logs 1 100 14)) = .to s'' ∧ s''.contents 0 = [(1, [100]), (2, [50])] := by
  obtain ⟨s, h1, h2⟩ := check_run (pol := true) (tid := (· + 100)) (p := fun s =>
      s.pc 0 == .held .startEnable [.resumeUser] && s.buffer == some 0 && s.config.mode == .ring)
    (l := begin2r) (by decide +kernel)
  obtain ⟨s', g1, g2⟩ := check_run (pol := true) (tid := (· + 100)) (p := fun s =>
      s.contents 0 == [(1, List.range 100), (2, [50])])
    (l := begin2r ++ (0, .step) :: filling) (by decide +kernel)
  obtain ⟨s'', k1, k2⟩ := check_run (pol := true) (tid := (· + 100)) (p := fun s =>
      s.contents 0 == [(1, [100]), (2, [50])])
    (l := begin2r ++ (0, .step) :: (filling ++ logs 1 100 14)) (by decide +kernel)
  simp only [Bool.and_eq_true, beq_iff_eq] at h2 g2 k2
  rw [run_split h1] at g1 k1
  exact ⟨s, s', s'', run_reachable .init h1, h2.1.1, h2.1.2, h2.2, g1, g2, k1, k2⟩

/-- C97: the bound cannot be improved. With one event more, which needs a third chunk, tracing is
stopped and the event lost, although 99 places in the second chunk are free; `C97_least` allows
for exactly that much. -/
theorem C97_tight : ∃ s s' : St Nat, Reachable true (· + 100) s ∧ s.pc 0 = .held .startEnable [.resumeUser] ∧
    s.buffer = some 0 ∧ s.config.mode = .fixed ∧ s.config.size / sizeofTraceChunk = 2 ∧
    (∀ u, u ∉ [1, 2] → (s.pc u).logging = false) ∧
    s.run true (· + 100) ((0, .step) :: spilling) = .to s' ∧ OneRun [1, 2] spilling ∧
    ([1, 2].map (fun t => chunksFor (((s.pc t).event.toList ++ logged t spilling).length))).sum = 3 ∧
    s'.enabled = false ∧ logged 1 spilling = List.range 101 ∧ s'.stored 0 1 = List.range 100 ∧ s'.stored 0 2 = [50] := by
  obtain ⟨s, h1, h2, h3, h4, h5, h6, h7, _, _⟩ := begin2_state
  obtain ⟨s', g1, g2⟩ := check_run (pol := true) (tid := (· + 100)) (p := fun s =>
      !s.enabled && s.stored 0 1 == List.range 100 && s.stored 0 2 == [50])
    (l := begin2 ++ (0, .step) :: spilling) (by decide +kernel)
  simp only [Bool.and_eq_true, beq_iff_eq, Bool.not_eq_true'] at g2
  rw [run_split h1] at g1
  refine ⟨s, s', run_reachable .init h1, h2, h3, by rw [h4]; rfl, by rw [h4]; decide +kernel, h5, g1, spilling_oneRun, ?_,
    g2.1.1, by decide +kernel, g2.1.2, g2.2⟩
  simp only [List.map_cons, List.map_nil, h6, h7]
  decide +kernel

/-- What precedes the run of `demoRun`, its logging, and its end. -/
def demoBegin : List (Nat × Choice Event) :=
  [(1, .register ['w']), (1, .step), (1, .step), (0, .lock), (0, .start { mode := .fixed, size := 4008 }), (0, .step)]

def demoMiddle : List (Nat × Choice Event) :=
  [(0, .ret), (0, .step)] ++
  demoEvents.zipIdx.flatMap (fun p => (1, .log p.1) :: List.replicate (if p.2 = 0 then 11 else 6) (1, .step))

def demoEnd : List (Nat × Choice Event) := [(0, .lock), (0, .stop false)] ++ List.replicate 4 (0, .step)

theorem checkE {pol : Bool} {l : List (Nat × Choice Event)} {p : St Event → Bool}
    (h : (match (St.init : St Event).run pol tid l with | .to s => p s | _ => false) = true) :
    ∃ s, (St.init : St Event).run pol tid l = .to s ∧ p s = true := by
  split at h
  · exact ⟨_, by assumption, h⟩
  · cases h

/-- What `C97_file` asks for is met by the program of `demoRun`, whose thread 1 logs two events. -/
example : ∃ s s1 s2 : St Event, Reachable true (· + 100) s ∧ s.pc 0 = .held .startEnable [.resumeUser] ∧ s.buffer = some 0 ∧
    s.config.mode = .fixed ∧ (∀ u, u ∉ [1] → (s.pc u).logging = false) ∧
    s.run true (· + 100) ((0, .step) :: demoMiddle) = .to s1 ∧ OneRun [1] demoMiddle ∧
    ([1].map (fun t => chunksFor (((s.pc t).event.toList ++ logged t demoMiddle).length))).sum ≤ s.config.size / sizeofTraceChunk ∧
    s1.run true (· + 100) demoEnd = .to s2 ∧ (s.pc 1).event = none ∧ isReg 1 s.hist = true ∧ (s1.pc 1).event = none ∧
    logged 1 demoEnd = [] ∧ logged 1 demoMiddle = demoEvents ∧ demoEvents.length = 2 ∧ s2.stored 0 1 = demoEvents := by
  obtain ⟨s, h1, h2⟩ := checkE (pol := true) (tid := (· + 100)) (p := fun s =>
      s.pc 0 == .held .startEnable [.resumeUser] && s.buffer == some 0 && s.config.mode == .fixed &&
      s.config.size / sizeofTraceChunk == 1 && s.pc 1 == .idle && isReg 1 s.hist)
    (l := demoBegin) (by decide +kernel)
  obtain ⟨s1, g1, g2⟩ := checkE (pol := true) (tid := (· + 100)) (p := fun s => s.pc 1 == .idle)
    (l := demoBegin ++ (0, .step) :: demoMiddle) (by decide +kernel)
  obtain ⟨s2, k1, k2⟩ := checkE (pol := true) (tid := (· + 100)) (p := fun s => s.stored 0 1 == demoEvents)
    (l := (demoBegin ++ (0, .step) :: demoMiddle) ++ demoEnd) (by decide +kernel)
  simp only [Bool.and_eq_true, beq_iff_eq] at h2 g2 k2
  rw [run_split g1] at k1
  rw [run_split h1] at g1
  obtain ⟨⟨⟨⟨⟨h2, h3⟩, h4⟩, h5⟩, h6⟩, h7⟩ := h2
  refine ⟨s, s1, s2, run_reachable .init h1, h2, h3, h4, fun u hu => ?_, g1, ?_, ?_, k1, by rw [h6]; rfl, h7, by rw [g2]; rfl,
    by decide +kernel, by decide +kernel, by decide +kernel, k2⟩
  · by_cases h0 : u = 0
    · subst h0; rw [h2]; rfl
    · simp at hu
      rw [run_pc_away h1 (u := u) (by simp [demoBegin]; omega)]
      rfl
  · intro u c hm
    simp only [demoMiddle, List.mem_append, List.mem_cons, List.mem_flatMap, List.mem_replicate, List.not_mem_nil,
      or_false] at hm
    rcases hm with (hm | hm) | ⟨i, _, hm | ⟨_, hm⟩⟩ <;> cases hm <;> exact ⟨by simp, by simp, by simp, by simp⟩
  · rw [h5]
    simp only [List.map_cons, List.map_nil, h6]
    decide +kernel

/-- Thread 1 logs an event and deregisters, three times. -/
def wasting : List (Nat × Choice Nat) :=
  logs 1 0 11 ++ (1, .deregister) :: steps 1 2 ++ registers 1 ['a'] ++ logs 1 1 11 ++ (1, .deregister) :: steps 1 2 ++
    registers 1 ['a'] ++ logs 1 2 17

/-- C97: that nobody deregisters is needed. A thread that deregisters leaves its chunk partly
filled; here the third of three events is lost to two chunks of 100. -/
theorem C97_leaving : ∃ s s' : St Nat, Reachable true (· + 100) s ∧ s.pc 0 = .held .startEnable [.resumeUser] ∧
    s.buffer = some 0 ∧ s.config.mode = .fixed ∧ s.config.size / sizeofTraceChunk = 2 ∧
    (∀ u, u ∉ [1, 2] → (s.pc u).logging = false) ∧
    s.run true (· + 100) ((0, .step) :: (0, .ret) :: (0, .step) :: wasting) = .to s' ∧
    s'.enabled = false ∧ logged 1 wasting = [0, 1, 2] ∧ s'.stored 0 1 = [0, 1] := by
  obtain ⟨s, h1, h2, h3, h4, h5, _, _, _, _⟩ := begin2_state
  obtain ⟨s', g1, g2⟩ := check_run (pol := true) (tid := (· + 100)) (p := fun s =>
      !s.enabled && s.stored 0 1 == [0, 1])
    (l := begin2 ++ (0, .step) :: (0, .ret) :: (0, .step) :: wasting) (by decide +kernel)
  simp only [Bool.and_eq_true, beq_iff_eq, Bool.not_eq_true'] at g2
  rw [run_split h1] at g1
  exact ⟨s, s', run_reachable .init h1, h2, h3, by rw [h4]; rfl, by rw [h4]; decide +kernel, h5, g1, g2.1, by decide +kernel, g2.2⟩

end Phosphor.TLog
