import Mathlib.Data.List.Perm.Subperm
import Verif.Proof.TraceLogRingMany
/-
Ring mode with any number of logging threads (C76): of each thread the buffer holds the most
recent events, without a gap, and how many events it holds at least.
-/
namespace Phosphor.TLog
variable {ε : Type} {tid : Nat → Nat} {s s' : St ε} {D : Prop} {b : Nat}

/-- No chunk handed out yet. -/
theorem RingMany.fresh (hr : Reachable true tid s) (hlt : b < s.nextBuf) (hm : (s.heap b).mode = .ring)
    (hc : s.contents b = []) (hst : ∀ t, s.stored b t = []) : RingMany D b s := by
  have hqueue : (s.heap b).queue = [] := by
    have := (hr.data.bufs b).qlt
    rw [hc] at this
    cases hqq : (s.heap b).queue with
    | nil => rfl
    | cons a l => exact absurd (this a (by rw [hqq]; simp)) (by simp)
  have hst' : s.stored b = fun _ => [] := funext hst
  refine ⟨hlt, hm, [], fun _ => [], by rw [hc, hqueue, hst']; exact .nil _, fun t i hi => ?_, by simp, by simp⟩
  obtain ⟨evs, he⟩ := hr.data.owns t b i hi
  rw [hc] at he
  simp at he

theorem Reachable.many (h : Reachable true tid s) (b : Nat) (hlt : b < s.nextBuf) (hm : (s.heap b).mode = .ring) :
    RingMany True b s := by
  induction h with
  | init => exact absurd hlt (by simp [St.init])
  | @step s s' u c hr hs ih =>
    by_cases hb : b < s.nextBuf
    · have hm' : (s.heap b).mode = .ring := by
        rw [← (next_bufop hs b (by omega)).shape.2.2]; exact hm
      exact (ih hb hm').next hr hs (Or.inl trivial)
    · have hr' := hr.step hs
      cases next_book hs with
      | create n st hp e =>
        have hbn : b = s.nextBuf := by
          have : s'.nextBuf = s.nextBuf + 1 := by rw [e]; rfl
          omega
        subst hbn
        exact .fresh hr' hlt hm (by rw [e]; simp [St.goto, St.createBuffer]) (by rw [e]; simp [St.goto, St.createBuffer])
      | calm new hn => omega
      | free a ha e => subst e; exact absurd hlt hb
      | retrieve cs st hp he e => subst e; exact absurd hlt hb
      | enable st hp e =>
        obtain ⟨q, _, e'⟩ := pop_goto s.enable u st
        rw [e, e'] at hlt
        exact absurd hlt hb
      | reg n hp hi e =>
        obtain ⟨e1, _⟩ := registerBody_frame (s := s) (tid := tid) (t := u) n
        subst e
        have : (s.registerBody tid u n).nextBuf = s.nextBuf := e1
        have hlt : b < (s.registerBody tid u n).nextBuf := hlt
        omega
      | dereg x hp hi hx e =>
        obtain ⟨hp', e1⟩ := deregisterBody_eq hi hx
        rw [e, e1] at hlt
        exact absurd hlt hb

/-- What reading a buffer whose chunks are in order yields. -/
theorem Shared.reads {tail : List Nat} {drop : Nat → List ε} {stored : Nat → List ε} {q : List Nat} {n : Nat}
    {cont : List (Nat × List ε)} (hinj : ∀ u v, tid u = tid v → u = v)
    (h : Shared D cont q tail drop stored n) (t : Nat) : ∃ kept, stored t = drop t ++ kept ∧
      (ofId (tid t) (flatEvents (tagged tid cont))).Perm kept := by
  refine ⟨_, h.split t, ?_⟩
  rw [ofId_flatEvents hinj, ← range_evOf]
  exact h.perm.symm.flatMap_right _

/-- C76: at every moment of every execution, with any number of threads logging, registering,
deregistering, starting, stopping and retrieving in any interleaving, reading a ring buffer yields
for each thread the most recent events it stored there, each once: what is missing is an initial
part, never something in between. And nothing is missing before every chunk has been handed out. -/
theorem C76_no_gaps (hinj : ∀ u v, tid u = tid v → u = v) (h : Reachable true tid s) (b : Nat) (hlt : b < s.nextBuf)
    (hm : (s.heap b).mode = .ring) :
    ∃ evs, Reads (s.heap b) evs ∧ ∀ t, ∃ dropped kept, s.stored b t = dropped ++ kept ∧
      (ofId (tid t) evs).Perm kept ∧ (dropped ≠ [] → (s.heap b).chunks.length ≤ (s.heap b).counter) := by
  obtain ⟨tail, drop, hl⟩ := (h.many b hlt hm).line
  refine ⟨_, C19_iterate _ _ (h.data.bufs b).holds, fun t => ?_⟩
  obtain ⟨kept, k1, k2⟩ := Shared.reads hinj hl.order t
  refine ⟨drop t, kept, k1, k2, fun hd => ?_⟩
  rcases hl.order.drop with hn | ⟨hlen, _⟩
  · exact absurd (hn t) hd
  · have := (h.data.bufs b).length_eq
    omega

/-- C76 in terms of the calls: a run in ring mode begins; whatever the threads do then, as long as
it is not stopped, for every thread that was registered and between calls when it began, has not
deregistered and is between calls again, reading the buffer yields the last events it passed to
`logEvent`, each once, without a gap. -/
theorem C76_last (hinj : ∀ u v, tid u = tid v → u = v) (h : Reachable true tid s) {o : Nat} {st : List Frame}
    (hp : s.pc o = .held .startEnable st) (hb : s.buffer = some b) (hm : (s.heap b).mode = .ring)
    {l : List (Nat × Choice ε)} (hr : s.run true tid ((o, .step) :: l) = .to s')
    {new : List Item} (hh : s'.hist = new ++ s.hist) (hns : ∀ sh full, Item.stop sh full ∉ new) :
    ∃ evs, Reads (s'.heap b) evs ∧ ∀ t, t ≠ o → (s.pc t).event = none → isReg t s.hist = true →
      Item.deregOk t ∉ new → (s'.pc t).event = none →
      ∃ dropped kept, logged t l = dropped ++ kept ∧ (ofId (tid t) evs).Perm kept := by
  obtain ⟨s1, b1, hs, hb1, hon, hst⟩ := C34_begins h hp
  have hs' : s.next true tid o .step = .to (s.enable.pop o st) := by
    simp [St.next, St.logStep, St.heldStep, hp]
  have e1 : s1 = s.enable.pop o st := by rw [hs] at hs'; cases hs'; rfl
  obtain ⟨q, _, e⟩ := pop_goto s.enable o st
  have hbb : b1 = b := by
    rw [e1, e] at hb1
    have : s.buffer = some b1 := hb1
    rw [hb] at this; cases this; rfl
  subst hbb
  have hh1 : s1.hist = .run (s.nextBuf - 1) s.config :: s.hist := by rw [e1, e]; rfl
  simp only [St.run, hs] at hr
  obtain ⟨n2, e2⟩ := run_hist hr
  have hnew : new = n2 ++ [.run (s.nextBuf - 1) s.config] := by
    have : new ++ s.hist = (n2 ++ [.run (s.nextBuf - 1) s.config]) ++ s.hist := by
      rw [← hh, e2, hh1]; simp
    exact List.append_cancel_right this
  have hlast := h.ctl.last b1 hb
  have hn1 : s1.nextBuf = s.nextBuf := by rw [e1, e]; rfl
  have hmode : (s'.heap b1).mode = .ring := by
    have := (run_counter (h.step hs) (b := b1) (by omega) hr).2.2
    rw [this, e1, e]; exact hm
  have hlt : b1 < s'.nextBuf := by
    have : ∀ {l : List (Nat × Choice ε)} {x y : St ε}, x.run true tid l = .to y → x.nextBuf ≤ y.nextBuf := by
      intro l
      induction l with
      | nil => intro x y hr; cases hr; exact Nat.le_refl _
      | cons p l ih =>
        intro x y hr
        obtain ⟨t, c⟩ := p
        simp only [St.run] at hr
        split at hr
        · rename_i s1 hs
          exact Nat.le_trans (nextBuf_mono hs) (ih hr)
        · cases hr
        · cases hr
    have := this hr
    omega
  obtain ⟨evs, k1, k2⟩ := C76_no_gaps hinj (run_reachable (h.step hs) hr) b1 hlt hmode
  refine ⟨evs, k1, fun t hto hi hreg hnd hi' => ?_⟩
  obtain ⟨dropped, kept, k3, k4, _⟩ := k2 t
  refine ⟨dropped, kept, ?_, k4⟩
  have key := C34_stored (t := t) (h.step hs) hr hon (by rw [hh1]; exact hreg) hb1 (new := n2) e2
    (fun a c hm => hns a c (by rw [hnew]; simp [hm])) (fun hm => hnd (by rw [hnew]; simp [hm])) (Or.inl hmode)
  rw [hst, hi', next_pc hs hto, hi] at key
  rw [← k3]
  simpa using key.symm

/-! ### How much the buffer holds -/

/-- Only threads in `T` have had chunks of buffer `b`, and no thread is deregistering. -/
structure Among (T : List Nat) (b : Nat) (x : St ε) : Prop where
  logs : ∀ u, (x.pc u).logging = true → u ∈ T
  owns : ∀ p ∈ x.contents b, p.1 ∈ T
  stays : ∀ u, x.pc u ≠ .deregBody

theorem logStep_owners {t : Nat} {sp : Bool} (hs : s.logStep tid t sp = .to s') :
    (∀ b, ∀ p ∈ s'.contents b, p.1 = t ∨ ∃ p' ∈ s.contents b, p'.1 = p.1) ∧ (s.pc t ≠ .deregBody → s'.pc t ≠ .deregBody) := by
  have same : ∀ {x : St ε} {q : Pc ε}, x.contents = s.contents → q ≠ .deregBody →
      (∀ b, ∀ p ∈ (x.goto t q).contents b, p.1 = t ∨ ∃ p' ∈ s.contents b, p'.1 = p.1) ∧
      (s.pc t ≠ .deregBody → (x.goto t q).pc t ≠ .deregBody) := by
    intro x q hx hq
    refine ⟨fun b p hp => Or.inr ⟨p, ?_, rfl⟩, fun _ => by rw [goto_pc]; exact hq⟩
    have : p ∈ x.contents b := hp
    rw [hx] at this; exact this
  have loan : ∀ {y : Buffer ε} {e : ε} {p i : Nat},
      (∀ b, ∀ a ∈ ((((s.setBuf p y).loaned t p i).setChunk t (some (p, i))).goto t (.store e)).contents b,
        a.1 = t ∨ ∃ p' ∈ s.contents b, p'.1 = a.1) ∧
      (s.pc t ≠ .deregBody → ((((s.setBuf p y).loaned t p i).setChunk t (some (p, i))).goto t (.store e)).pc t ≠ .deregBody) := by
    intro y e p i
    refine ⟨fun b a ha => ?_, fun _ => by rw [goto_pc]; simp⟩
    by_cases hb : b = p
    · subst hb
      replace ha : a ∈ setf s.contents b (if i < (s.contents b).length then (s.contents b).set i (t, [])
        else s.contents b ++ [(t, [])]) b := ha
      rw [setf_self] at ha
      split at ha
      · rcases List.mem_or_eq_of_mem_set ha with ha | ha
        · exact Or.inr ⟨a, ha, rfl⟩
        · left; rw [ha]
      · rcases List.mem_append.1 ha with ha | ha
        · exact Or.inr ⟨a, ha, rfl⟩
        · left; simp at ha; rw [ha]
    · simp only [St.goto, St.setChunk, St.loaned, St.setBuf, setf, if_neg hb] at ha
      exact Or.inr ⟨a, ha, rfl⟩
  unfold St.logStep at hs
  split at hs
  case h_1 => cases hs; split <;> exact same rfl (by simp)
  case h_2 e hp =>
    split at hs <;> cases hs
    · exact same rfl (by simp)
    · exact same rfl (by simp)
    · exact ⟨fun b p hp => Or.inr ⟨p, hp, rfl⟩, id⟩
  case h_3 => cases hs; split <;> exact same rfl (by simp)
  case h_4 =>
    split at hs
    · cases hs; exact same rfl (by simp)
    · split at hs
      · split at hs
        · cases hs; split <;> exact same rfl (by simp)
        · cases hs
      · cases hs
  case h_5 =>
    split at hs <;> cases hs
    · split <;> exact same rfl (by simp)
    · exact same rfl (by simp)
  case h_6 => split at hs <;> cases hs; exact same rfl (by simp)
  case h_7 =>
    split at hs
    · cases hs
    · split at hs <;> cases hs
      exact same rfl (by simp)
  case h_8 => cases hs; split <;> exact same rfl (by simp)
  case h_9 => cases hs; split <;> exact same rfl (by simp)
  case h_10 => split at hs <;> cases hs; exact same rfl (by simp)
  case h_11 =>
    split at hs
    · split at hs
      · split at hs <;> cases hs
        · exact loan
        · exact same rfl (by simp)
      · split at hs <;> cases hs
        · exact loan
        · exact same rfl (by simp)
    · cases hs
  case h_12 =>
    split at hs
    · split at hs <;> cases hs
      · exact loan
      · exact ⟨fun b p hp => Or.inr ⟨p, hp, rfl⟩, id⟩
    · cases hs
  case h_13 => cases hs; exact same rfl (by simp)
  case h_14 => cases hs; exact same rfl (by simp)
  case h_15 =>
    split at hs <;> cases hs
    · exact same (x := { s with owner := some t }) rfl (by simp)
    · exact same rfl (by simp)
  case h_16 =>
    split at hs
    · cases hs; exact same rfl (by simp)
    · split at hs <;> cases hs
      · exact same (x := { s with enabled := false, hist := _ }) rfl (by simp)
      · exact same rfl (by simp)
  case h_17 e hp =>
    split at hs
    · cases hs
    · rename_i p i hc
      split at hs
      · split at hs
        · rename_i y hy
          cases hs
          refine ⟨fun b a ha => Or.inr ?_, fun _ => by rw [goto_pc]; simp⟩
          by_cases hb : b = p
          · subst hb
            simp only [St.goto, St.recorded, St.setBuf, setf_self] at ha
            obtain ⟨j, hj⟩ := List.mem_iff_getElem?.1 ha
            rw [List.getElem?_modify] at hj
            simp only [Option.map_eq_map, Option.map_eq_some_iff] at hj
            obtain ⟨a', h1, h2⟩ := hj
            refine ⟨a', List.mem_iff_getElem?.2 ⟨j, h1⟩, ?_⟩
            split at h2 <;> rw [← h2]
          · simp only [St.goto, St.recorded, St.setBuf, setf, if_neg hb] at ha
            exact ⟨a, ha, rfl⟩
        · cases hs
      · cases hs
  case h_18 => cases hs; exact same rfl (by simp)
  case h_19 => cases hs

theorem Among.next {T : List Nat} {u : Nat} {c : Choice ε} (h : Among T b s) (hb : b < s.nextBuf)
    (hs : s.next true tid u c = .to s') (hl : ∀ e, c = .log e → u ∈ T) (hd : c ≠ .deregister) : Among T b s' := by
  have fin : (∀ p ∈ s'.contents b, p.1 ∈ T) → ((s'.pc u).logging = true → u ∈ T) → s'.pc u ≠ .deregBody → Among T b s' := by
    intro h1 h2 h3
    refine ⟨fun v hv => ?_, h1, fun v hv => ?_⟩
    · by_cases hvu : v = u
      · subst hvu; exact h2 hv
      · rw [next_pc hs hvu] at hv; exact h.logs v hv
    · by_cases hvu : v = u
      · subst hvu; exact h3 hv
      · rw [next_pc hs hvu] at hv; exact h.stays v hv
  by_cases hlog : (s.pc u).logging = true
  · have hu := h.logs u hlog
    rcases next_in_log hs hlog with ⟨sp, hs'⟩ | ⟨a, rfl⟩
    · obtain ⟨k1, k2⟩ := logStep_owners hs'
      refine fin (fun p hp => ?_) (fun _ => hu) (k2 (h.stays u))
      rcases k1 b p hp with e | ⟨p', hp', e⟩
      · rw [e]; exact hu
      · rw [← e]; exact h.owns p' hp'
    · exact ⟨h.logs, h.owns, h.stays⟩
  · have hlog' : (s.pc u).logging = false := by simpa using hlog
    by_cases hc : ∃ e, c = .log e
    · obtain ⟨e, rfl⟩ := hc
      have hu := hl e rfl
      simp only [St.next] at hs
      split at hs <;> cases hs
      exact fin h.owns (fun _ => hu) (by rw [goto_pc]; simp)
    · have hq := next_quiet (b := b) hs hlog' (fun e he => hc ⟨e, he⟩) (by omega) (fun hp => absurd hp (h.stays u))
      refine fin (by rw [hq.same.contents]; exact h.owns) (fun hv => by rw [hq.pc] at hv; cases hv) (fun hv => ?_)
      rcases hq.dereg hv with e | e
      · exact hd e
      · exact h.stays u e

theorem run_split {a l : List (Nat × Choice ε)} {pol : Bool} {s1 : St ε} (h : s.run pol tid a = .to s1) :
    s.run pol tid (a ++ l) = s1.run pol tid l := by
  induction a generalizing s with
  | nil => cases h; rfl
  | cons p a ih =>
    obtain ⟨t, c⟩ := p
    simp only [St.run, List.cons_append] at h ⊢
    split at h
    · exact ih h
    · cases h
    · cases h

/-- In the execution `l` only threads in `T` log, and no thread deregisters. -/
def OnlyLoggers (T : List Nat) (l : List (Nat × Choice ε)) : Prop :=
  ∀ u c, (u, c) ∈ l → (∀ e, c = .log e → u ∈ T) ∧ c ≠ .deregister

theorem RingMany.run {T : List Nat} {l : List (Nat × Choice ε)} (h : RingMany False b s) (ha : Among T b s)
    (hr : Reachable true tid s) (hs : s.run true tid l = .to s') (hl : OnlyLoggers T l) :
    RingMany False b s' ∧ Among T b s' := by
  induction l generalizing s with
  | nil => cases hs; exact ⟨h, ha⟩
  | cons p l ih =>
    obtain ⟨u, c⟩ := p
    simp only [St.run] at hs
    split at hs
    · rename_i s1 h1
      have h2 := hl u c (by simp)
      exact ih (h.next hr h1 (Or.inr (ha.stays u))) (ha.next h.lt h1 h2.1 h2.2) (hr.step h1) hs
        (fun v d hm => hl v d (List.mem_cons_of_mem _ hm))
    · cases hs
    · cases hs

/-- C76: a run in ring mode with `N` chunks begins; from then on only the threads in `T` log and
nobody deregisters, while the other threads do anything else, in any interleaving. At any later
moment the buffer holds everything that was stored, or at least `N - |T|` chunks full of events,
for each thread its most recent ones. -/
theorem C76_amount (hinj : ∀ u v, tid u = tid v → u = v) (h : Reachable true tid s) {o : Nat} {st : List Frame}
    (hp : s.pc o = .held .startEnable st) (hb : s.buffer = some b) (hm : (s.heap b).mode = .ring) {T : List Nat}
    (hq : ∀ u, u ∉ T → (s.pc u).logging = false)
    {l : List (Nat × Choice ε)} (hr : s.run true tid ((o, .step) :: l) = .to s') (hl : OnlyLoggers T l) :
    ∃ evs, Reads (s'.heap b) evs ∧
      (∀ t, ∃ dropped kept, s'.stored b t = dropped ++ kept ∧ (ofId (tid t) evs).Perm kept) ∧
      ((∀ t, (ofId (tid t) evs).Perm (s'.stored b t)) ∨
        ((s'.heap b).chunks.length - T.length) * chunkSize ≤ evs.length) := by
  have hs : s.next true tid o .step = .to (s.enable.pop o st) := by
    simp [St.next, St.logStep, St.heldStep, hp]
  simp only [St.run, hs] at hr
  have hr1 := h.step hs
  have hen : (s.pc o).isEnable = true := by rw [hp]; rfl
  obtain ⟨q, hq', e⟩ := pop_goto s.enable o st
  have hlast := h.ctl.last b hb
  have hnb : s.nextBuf - 1 = b := by omega
  have hcont : s.contents b = [] := by have := fresh_contents h o hen; rw [hnb] at this; exact this
  have hst : ∀ t, s.stored b t = [] := by
    have := fresh_stored h o hen
    rw [hnb] at this
    intro t; rw [this]
  have hq2 : q.logging = false ∧ q ≠ .deregBody := by
    have : (s.enable.pop o st).pc o = q := by rw [e, goto_pc]
    have h2 : ((s.enable.pop o st).pc o).logging = false ∧ (s.enable.pop o st).pc o ≠ .deregBody := by
      unfold St.pop
      split <;> rw [goto_pc] <;> simp [Pc.logging]
    rw [this] at h2; exact h2
  have hmany : RingMany False b (s.enable.pop o st) := by
    refine .fresh hr1 ?_ ?_ ?_ ?_
    · rw [e]
      show b < s.nextBuf
      omega
    · rw [e]; exact hm
    · rw [e]; exact hcont
    · rw [e]; exact hst
  have hamong : Among T b (s.enable.pop o st) := by
    rw [e]
    refine ⟨fun u hu => ?_, ?_, fun u hu => ?_⟩
    · by_cases huo : u = o
      · subst huo; rw [goto_pc, hq2.1] at hu; cases hu
      · rw [goto_other _ _ _ _ huo] at hu
        have hu : (s.pc u).logging = true := hu
        apply Classical.byContradiction
        intro hT
        rw [hq u hT] at hu; cases hu
    · show ∀ p ∈ s.contents b, p.1 ∈ T
      rw [hcont]; simp
    · by_cases huo : u = o
      · subst huo; rw [goto_pc] at hu; exact hq2.2 hu
      · rw [goto_other _ _ _ _ huo] at hu
        have hu : s.pc u = .deregBody := hu
        have h1 := (h.ctl.own u).2 (by rw [hu]; rfl)
        have h2 := (h.ctl.own o).2 (by rw [hp]; rfl)
        rw [h1] at h2
        cases h2
        exact huo rfl
  obtain ⟨hmany', hamong'⟩ := hmany.run hamong hr1 hr hl
  have hreach := run_reachable hr1 hr
  obtain ⟨tail, drop, hline⟩ := hmany'.line
  refine ⟨_, C19_iterate _ _ (hreach.data.bufs b).holds, fun t => ?_, ?_⟩
  · obtain ⟨kept, k1, k2⟩ := Shared.reads hinj hline.order t
    exact ⟨drop t, kept, k1, k2⟩
  · rcases hline.order.drop with hn | ⟨hlen, _⟩
    · left
      intro t
      obtain ⟨kept, k1, k2⟩ := Shared.reads hinj hline.order t
      rw [hn t] at k1
      rw [k1]; exact k2
    · right
      have hfull := hline.order.full.resolve_left id
      have hcount := hline.order.count
      have htail : tail.length ≤ T.length := by
        have h1 : (tail.map (ownAt (s'.contents b))).length ≤ (T.map some).length := by
          refine (List.subperm_of_subset hline.order.own ?_).length_le
          intro a ha
          obtain ⟨j, hj, rfl⟩ := List.mem_map.1 ha
          have hjl := hline.order.lt (List.mem_append_right _ hj)
          have he : (s'.contents b)[j]? = some (s'.contents b)[j] := List.getElem?_eq_getElem hjl
          simp only [ownAt, he, Option.map_some]
          exact List.mem_map.2 ⟨_, hamong'.owns _ (List.getElem_mem hjl), rfl⟩
        simpa using h1
      have hev : (flatEvents (tagged tid (s'.contents b))).length =
          (((s'.heap b).queue ++ tail).flatMap (evAt (s'.contents b))).length := by
        rw [(hline.order.perm.flatMap_right (evAt (s'.contents b))).length_eq, range_evAt]
        generalize s'.contents b = cont
        induction cont with
        | nil => rfl
        | cons p cont ih =>
          have : flatEvents (tagged tid (p :: cont)) = p.2.map (fun e => (e, tid p.1)) ++ flatEvents (tagged tid cont) := by
            simp [flatEvents, tagged]
          rw [this, List.length_append, ih, List.flatMap_cons, List.length_append, List.length_map]
      rw [hev, List.flatMap_append, List.length_append, Order.full_length hfull]
      have : (s'.heap b).chunks.length - T.length ≤ (s'.heap b).queue.length := by omega
      exact Nat.le_trans (Nat.mul_le_mul_right _ this) (Nat.le_add_right _ _)

/-! ### Two threads share two chunks -/

def ring2 : TraceConfig := { mode := .ring, size := 8100 }

/-- Thread `t` logs `e` and takes `n` steps. -/
def logs (t e n : Nat) : List (Nat × Choice Nat) := (t, .log e) :: steps t n

/-- Thread 1 fills a chunk, thread 2 takes the other one, and thread 1 goes on. -/
def sharing : List (Nat × Choice Nat) :=
  logs 1 0 11 ++ (List.range 99).flatMap (fun i => logs 1 (i + 1) 6) ++ logs 2 50 11 ++ logs 1 100 14 ++ logs 1 101 6

/-- The buffer is read while threads 1 and 2 share it: thread 1 has stored 102 events of which the
last two are there, thread 2 one, which is there; the hypotheses of the theorems above hold. -/
example : ∃ s s' : St Nat, Reachable true (· + 100) s ∧ s.pc 0 = .held .startEnable [.resumeUser] ∧ s.buffer = some 0 ∧
    (s.heap 0).mode = .ring ∧ (∀ u, u ∉ [1, 2] → (s.pc u).logging = false) ∧
    s.run true (· + 100) ((0, .step) :: sharing) = .to s' ∧ OnlyLoggers [1, 2] sharing ∧
    s'.contents 0 = [(1, [100, 101]), (2, [50])] ∧ (s'.stored 0 1).length = 102 ∧ s'.stored 0 2 = [50] := by
  obtain ⟨s', h1, h2⟩ := check_run (pol := true) (tid := (· + 100)) (p := fun s =>
      s.contents 0 == [(1, [100, 101]), (2, [50])] && (s.stored 0 1).length == 102 && s.stored 0 2 == [50])
    (l := (registers 1 ['a'] ++ registers 2 ['b'] ++ [(0, .lock), (0, .start ring2), (0, .step)]) ++ (0, .step) :: sharing)
    (by decide +kernel)
  obtain ⟨s, h3, h4⟩ := check_run (pol := true) (tid := (· + 100)) (p := fun s =>
      s.pc 0 == .held .startEnable [.resumeUser] && s.buffer == some 0 && (s.heap 0).mode == .ring)
    (l := registers 1 ['a'] ++ registers 2 ['b'] ++ [(0, .lock), (0, .start ring2), (0, .step)]) (by decide +kernel)
  simp only [Bool.and_eq_true, beq_iff_eq] at h2 h4
  refine ⟨s, s', run_reachable .init h3, h4.1.1, h4.1.2, h4.2, fun u hu => ?_, ?_, ?_, h2.1.1, h2.1.2, h2.2⟩
  · by_cases h0 : u = 0
    · subst h0; rw [h4.1.1]; rfl
    · simp at hu
      rw [run_pc_away h3 (u := u) (by simp [registers, steps]; omega)]
      rfl
  · rw [run_split h3] at h1
    exact h1
  · intro u c hm
    simp only [sharing, logs, steps, List.mem_append, List.mem_cons, List.mem_flatMap, List.mem_replicate] at hm
    rcases hm with (((hm | ⟨i, _, hm⟩) | hm) | hm) | hm <;>
      (rcases hm with hm | ⟨_, hm⟩ <;> cases hm <;> exact ⟨by simp, by simp⟩)

/-- Thread 1 logs one event and deregisters, three times. -/
def leaving : List (Nat × Choice Nat) :=
  registers 1 ['a'] ++ logs 1 0 11 ++ (1, .deregister) :: steps 1 2 ++
  registers 1 ['a'] ++ logs 1 1 11 ++ (1, .deregister) :: steps 1 2 ++ registers 1 ['a'] ++ logs 1 2 12

/-- C76: that nobody deregisters is needed for the amount. A thread that deregisters gives its
chunk back partly filled; here one thread has stored three events into two chunks of 100 and the
first is gone. -/
theorem C76_leaving : ∃ s : St Nat, Reachable true (· + 100) s ∧ s.buffer = some 0 ∧ (s.heap 0).mode = .ring ∧
    (s.heap 0).chunks.length = 2 ∧ s.stored 0 1 = [0, 1, 2] ∧ Reads (s.heap 0) [(2, 101), (1, 101)] := by
  obtain ⟨s, h1, h2⟩ := check_run (pol := true) (tid := (· + 100)) (p := fun s =>
      s.buffer == some 0 && (s.heap 0).mode == .ring && (s.heap 0).chunks.length == 2 &&
      s.stored 0 1 == [0, 1, 2] && s.contents 0 == [(1, [2]), (1, [1])])
    (l := starts ring2 ++ leaving) (by decide +kernel)
  simp only [Bool.and_eq_true, beq_iff_eq] at h2
  obtain ⟨⟨⟨⟨g1, g2⟩, g3⟩, g4⟩, g5⟩ := h2
  have hr := run_reachable .init h1
  refine ⟨s, hr, g1, g2, g3, g4, ?_⟩
  have := C19_iterate _ _ (hr.data.bufs 0).holds
  rw [g5] at this
  exact this

end Phosphor.TLog
