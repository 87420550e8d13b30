import Verif.Props.TraceLogRing
import Verif.Proof.RingShared
/-
A ring buffer into which any number of threads log.
-/
namespace Phosphor.TLog
variable {ε : Type} {tid : Nat → Nat} {s s' : St ε} {D : Prop} {b : Nat}

/-- Where the events of the threads are in the ring buffer `b`. -/
structure Line (D : Prop) (b : Nat) (x : St ε) (tail : List Nat) (drop : Nat → List ε) : Prop where
  order : Shared D (x.contents b) (x.heap b).queue tail drop (x.stored b) (x.heap b).chunks.length
  chunk : ∀ t i, (x.tenant t).chunk = some (b, i) → i ∈ tail ∧
    ((x.pc t).returning = true → (evAt (x.contents b) i).length = chunkSize)
  fetch : x.buffer = some b → ∀ t, (x.pc t).noChunk = true → some t ∉ tail.map (ownAt (x.contents b))
  gone : x.buffer = some b → x.enabled = true → ∀ t, (x.tenant t).chunk = none →
    some t ∉ tail.map (ownAt (x.contents b))

/-- Buffer `b` is a ring and its chunks are in order. -/
structure RingMany (D : Prop) (b : Nat) (x : St ε) : Prop where
  lt : b < x.nextBuf
  ring : (x.heap b).mode = .ring
  line : ∃ tail drop, Line D b x tail drop

/-- A step that does not hand out or take back a chunk of `b` and does not write to it. -/
theorem Line.keep {tail : List Nat} {drop : Nat → List ε} (h : Line D b s tail drop)
    (h1 : (s'.heap b).queue = (s.heap b).queue) (h2 : (s'.heap b).chunks.length = (s.heap b).chunks.length)
    (h3 : s'.contents b = s.contents b) (h4 : s'.stored b = s.stored b)
    (hc : ∀ v i, (s'.tenant v).chunk = some (b, i) → (s.tenant v).chunk = some (b, i) ∧
      ((s'.pc v).returning = true → (s.pc v).returning = true ∨ (evAt (s.contents b) i).length = chunkSize))
    (hf : s'.buffer = some b → ∀ v, (s'.pc v).noChunk = true →
      s.buffer = some b ∧ ((s.pc v).noChunk = true ∨ s.enabled = true ∧ (s.tenant v).chunk = none))
    (hg : s'.buffer = some b → s'.enabled = true → ∀ v, (s'.tenant v).chunk = none →
      s.contents b = [] ∨ s.buffer = some b ∧ s.enabled = true ∧ (s.tenant v).chunk = none) :
    Line D b s' tail drop := by
  refine ⟨by rw [h1, h2, h3, h4]; exact h.order, fun v i hi => ?_, fun hb v hv => ?_, fun hb he v hv => ?_⟩
  · obtain ⟨c1, c2⟩ := hc v i hi
    obtain ⟨l1, l2⟩ := h.chunk v i c1
    refine ⟨l1, fun hr => ?_⟩
    rw [h3]
    exact (c2 hr).elim l2 id
  · obtain ⟨f1, f2⟩ := hf hb v hv
    rw [h3]
    rcases f2 with f2 | ⟨f2, f3⟩
    · exact h.fetch f1 v f2
    · exact h.gone f1 f2 v f3
  · rw [h3]
    rcases hg hb he v hv with g | ⟨g1, g2, g3⟩
    · have := h.order
      rw [g] at this
      rw [this.tail_nil]
      simp
    · exact h.gone g1 g2 v g3

theorem RingMany.keep (h : RingMany D b s) (hn : s.nextBuf ≤ s'.nextBuf) (hm : (s'.heap b).mode = (s.heap b).mode)
    (h1 : (s'.heap b).queue = (s.heap b).queue) (h2 : (s'.heap b).chunks.length = (s.heap b).chunks.length)
    (h3 : s'.contents b = s.contents b) (h4 : s'.stored b = s.stored b)
    (hc : ∀ v i, (s'.tenant v).chunk = some (b, i) → (s.tenant v).chunk = some (b, i) ∧
      ((s'.pc v).returning = true → (s.pc v).returning = true ∨ (evAt (s.contents b) i).length = chunkSize))
    (hf : s'.buffer = some b → ∀ v, (s'.pc v).noChunk = true →
      s.buffer = some b ∧ ((s.pc v).noChunk = true ∨ s.enabled = true ∧ (s.tenant v).chunk = none))
    (hg : s'.buffer = some b → s'.enabled = true → ∀ v, (s'.tenant v).chunk = none →
      s.contents b = [] ∨ s.buffer = some b ∧ s.enabled = true ∧ (s.tenant v).chunk = none) : RingMany D b s' := by
  obtain ⟨tail, drop, hl⟩ := h.line
  exact ⟨Nat.lt_of_lt_of_le h.lt hn, by rw [hm]; exact h.ring, tail, drop, hl.keep h1 h2 h3 h4 hc hf hg⟩

/-- What a step does to the buffer of the log and to `enabled`. -/
theorem next_current {u : Nat} {c : Choice ε} (hr : Reachable true tid s) (hs : s.next true tid u c = .to s')
    (hlt : b < s.nextBuf) : s.nextBuf ≤ s'.nextBuf ∧ (s'.buffer = some b → s.buffer = some b ∧
      (s'.enabled = true → s.enabled = true ∨ s.contents b = [])) := by
  have hon : s.buffer = some b → s'.enabled = true → s.enabled = true ∨ s.contents b = [] := by
    intro hb he
    have : s.enabled = true ∨ (s.pc u).isEnable = true := by
      cases next_move hr.ctl hs with
      | calm _ _ _ _ on => exact on he
      | loan _ _ _ _ _ _ _ _ on => rw [on] at he; exact Or.inl he
      | ret _ _ _ _ _ _ _ _ on => rw [on] at he; exact Or.inl he
      | clear _ _ _ _ _ _ _ _ on => rw [on] at he; exact Or.inl he
      | create _ _ _ _ _ _ on => rw [on] at he; exact Or.inl he
      | member _ _ _ _ _ _ on => rw [on] at he; exact Or.inl he
    refine this.imp id (fun h => ?_)
    have h1 := fresh_contents hr u h
    have h2 := hr.ctl.last b hb
    rw [← h2] at h1
    exact h1
  cases next_book hs with
  | calm new hn ha hd hb => exact ⟨by omega, fun h => by rw [hb] at h; exact ⟨h, hon h⟩⟩
  | free a ha e => subst e; exact ⟨Nat.le_refl _, fun h => ⟨h, hon h⟩⟩
  | retrieve cs st hp he e => subst e; exact ⟨Nat.le_refl _, fun h => by cases h⟩
  | create n st hp e =>
    subst e
    refine ⟨Nat.le_succ _, fun h => ?_⟩
    have : some s.nextBuf = some b := h
    cases this
    omega
  | enable st hp e =>
    obtain ⟨q, hq, e'⟩ := pop_goto s.enable u st
    rw [e'] at e
    refine ⟨by rw [e]; exact Nat.le_refl _, fun h => ?_⟩
    have h0 : s.buffer = some b := by rw [e] at h; exact h
    exact ⟨h0, hon h0⟩
  | reg n hp hi e =>
    subst e
    obtain ⟨e1, e2⟩ := registerBody_frame (s := s) (tid := tid) (t := u) n
    refine ⟨Nat.le_of_eq e1.symm, fun h => ?_⟩
    have h0 : s.buffer = some b := by
      have hx : (s.registerBody tid u n).buffer = s.buffer := by
        unfold St.registerBody
        split
        · rfl
        · dsimp only; split <;> rfl
      rw [← hx]; exact h
    exact ⟨h0, hon h0⟩
  | dereg x hp hi hx e =>
    obtain ⟨hp', rfl⟩ := deregisterBody_eq hi hx
    subst e
    exact ⟨Nat.le_refl _, fun h => ⟨h, hon h⟩⟩

/-- A step outside `logEvent`. -/
theorem RingMany.quiet {u : Nat} {c : Choice ε} (h : RingMany D b s) (hr : Reachable true tid s)
    (hs : s.next true tid u c = .to s') (hq : Quiet b u c s s')
    (hd : s.pc u = .deregBody → ∀ i, (s.tenant u).chunk ≠ some (b, i)) : RingMany D b s' := by
  obtain ⟨b1, b2⟩ := next_current hr hs h.lt
  refine h.keep b1 (by rw [hq.same.heap]) (by rw [hq.same.heap]) (by rw [hq.same.heap]) hq.same.contents hq.same.stored
    (fun v i hi => ⟨?_, fun hret => Or.inl ?_⟩) (fun hb v hv => ⟨(b2 hb).1, Or.inl ?_⟩) (fun hb he v hv => ?_)
  · rcases hq.chunk v with e | ⟨e, _⟩
    · rw [← e]; exact hi
    · rw [e] at hi; cases hi
  · by_cases hvu : v = u
    · subst hvu
      have := hq.pc
      cases hp : s'.pc v <;> rw [hp] at this hret <;> first | (cases hret; done) | cases this
    · rw [← next_pc hs hvu]; exact hret
  · by_cases hvu : v = u
    · subst hvu
      have := hq.pc
      cases hp : s'.pc v <;> rw [hp] at this hv <;> first | (cases hv; done) | cases this
    · rw [← next_pc hs hvu]; exact hv
  · obtain ⟨b3, b4⟩ := b2 hb
    rcases b4 he with b4 | b4
    · right
      refine ⟨b3, b4, ?_⟩
      rcases hq.chunk v with e | ⟨_, e | ⟨rfl, e⟩⟩
      · rw [← e]; exact hv
      · rw [hr.ctl.off u e] at b4; cases b4
      · cases hc : (s.tenant v).chunk with
        | none => rfl
        | some p =>
          exfalso
          obtain ⟨p, i⟩ := p
          have hpb := hr.ctl.chunkBuf v p i hc
          rw [b3] at hpb
          cases hpb
          exact hd e i hc
    · exact Or.inl b4

/-- A step of `t` in `logEvent` that leaves the buffer and the chunks alone. -/
theorem RingMany.goto {t : Nat} {x : St ε} {q : Pc ε} (h : RingMany D b s) (h1 : x.nextBuf = s.nextBuf)
    (hx : SameBuf b s x) (h2 : x.buffer = s.buffer) (h3 : x.enabled = s.enabled) (h4 : x.pc = s.pc)
    (h5 : ∀ u, (x.tenant u).chunk = (s.tenant u).chunk)
    (hret : q.returning = true → ∀ i, (s.tenant t).chunk = some (b, i) →
      (s.pc t).returning = true ∨ (evAt (s.contents b) i).length = chunkSize)
    (hn : q.noChunk = true → s.buffer = some b → (s.pc t).noChunk = true ∨ s.enabled = true ∧ (s.tenant t).chunk = none) :
    RingMany D b (x.goto t q) := by
  refine h.keep (Nat.le_of_eq h1.symm) (by rw [show (x.goto t q).heap b = x.heap b from rfl, hx.heap])
    (by rw [show (x.goto t q).heap b = x.heap b from rfl, hx.heap])
    (by rw [show (x.goto t q).heap b = x.heap b from rfl, hx.heap]) hx.contents hx.stored
    (fun v i hi => ?_) (fun hb v hv => ?_) (fun hb he v hv => ?_)
  · have hi' : (s.tenant v).chunk = some (b, i) := by rw [← h5]; exact hi
    refine ⟨hi', fun hr => ?_⟩
    by_cases hvt : v = t
    · subst hvt; rw [goto_pc] at hr; exact hret hr i hi'
    · rw [goto_other _ _ _ _ hvt, h4] at hr; exact Or.inl hr
  · have hb' : s.buffer = some b := by rw [← h2]; exact hb
    refine ⟨hb', ?_⟩
    by_cases hvt : v = t
    · subst hvt; rw [goto_pc] at hv; exact hn hv hb'
    · rw [goto_other _ _ _ _ hvt, h4] at hv; exact Or.inl hv
  · exact Or.inr ⟨by rw [← h2]; exact hb, by rw [← h3]; exact he, by rw [← h5]; exact hv⟩

/-- A thread that has a chunk of buffer `b` owns it, and no other chunk of the tail. -/
theorem own_chunk (hr : Reachable true tid s) {t i : Nat} (hc : (s.tenant t).chunk = some (b, i)) :
    ownAt (s.contents b) i = some t := by
  obtain ⟨evs, he⟩ := hr.data.owns t b i hc
  simp [ownAt, he]

/-- `t` gets chunk `i` of buffer `p`. -/
theorem RingMany.loan {t p i : Nat} {e : ε} {y : Buffer ε} (h : RingMany D b s) (hb : s.buffer = some p)
    (hn : (s.pc t).noChunk = true) (hm : y.mode = (s.heap p).mode) (hl : y.chunks.length = (s.heap p).chunks.length)
    (ho : p = b → ∀ tail drop, some t ∉ tail.map (ownAt (s.contents p)) →
      Shared D (s.contents p) (s.heap p).queue tail drop (s.stored p) (s.heap p).chunks.length →
      i ∉ tail ∧ ∃ drop', Shared D (if i < (s.contents p).length then (s.contents p).set i (t, []) else s.contents p ++ [(t, [])])
        y.queue (tail ++ [i]) drop' (s.stored p) (s.heap p).chunks.length) :
    RingMany D b ((((s.setBuf p y).loaned t p i).setChunk t (some (p, i))).goto t (.store e)) := by
  by_cases hbp : b = p
  · subst hbp
    obtain ⟨tail, drop, hpl⟩ := h.line
    have htail := hpl.fetch hb t hn
    obtain ⟨hni, drop', hor⟩ := ho rfl tail drop htail hpl.order
    have hsame : ∀ j ∈ tail, (if i < (s.contents b).length then (s.contents b).set i (t, ([] : List ε))
        else s.contents b ++ [(t, [])])[j]? = (s.contents b)[j]? := by
      intro j hj
      have hjl := hpl.order.lt (List.mem_append_right _ hj)
      split
      · apply List.getElem?_set_ne
        rintro rfl; exact hni hj
      · exact List.getElem?_append_left hjl
    have hown : (tail ++ [i]).map (ownAt (if i < (s.contents b).length then (s.contents b).set i (t, ([] : List ε))
        else s.contents b ++ [(t, [])])) = tail.map (ownAt (s.contents b)) ++ [some t] := by
      rw [List.map_append, ownAt_congr hsame, List.map_singleton]
      congr 2
      have hlt := hor.lt (j := i) (by simp)
      by_cases hi : i < (s.contents b).length
      · rw [if_pos hi]; simp [ownAt, hi]
      · rw [if_neg hi] at hlt ⊢
        have : i = (s.contents b).length := by simp at hlt; omega
        subst this
        simp [ownAt]
    have hev : ∀ j ∈ tail, evAt (if i < (s.contents b).length then (s.contents b).set i (t, ([] : List ε))
        else s.contents b ++ [(t, [])]) j = evAt (s.contents b) j := by
      intro j hj; simp only [evAt, hsame j hj]
    have hcont : ((((s.setBuf b y).loaned t b i).setChunk t (some (b, i))).goto t (.store e)).contents b =
        if i < (s.contents b).length then (s.contents b).set i (t, ([] : List ε)) else s.contents b ++ [(t, [])] :=
      setf_self _ _ _
    refine ⟨h.lt, by simp [St.goto, St.setChunk, St.loaned, St.setBuf, hm, h.ring], tail ++ [i], drop', ?_,
      fun v j hj => ?_, fun _ v hv => ?_, fun _ he v hv => ?_⟩
    · simp only [St.goto, St.setChunk, St.loaned, St.setBuf, setf_self, hl]
      exact hor
    · by_cases hvt : v = t
      · subst hvt
        simp [St.goto, St.setChunk] at hj
        subst hj
        exact ⟨by simp, fun hr => by rw [goto_pc] at hr; cases hr⟩
      · have hj' : (s.tenant v).chunk = some (b, j) := by
          simpa [St.goto, St.setChunk, St.loaned, St.setBuf, setf, hvt] using hj
        obtain ⟨l1, l2⟩ := hpl.chunk v j hj'
        refine ⟨List.mem_append_left _ l1, fun hr => ?_⟩
        rw [goto_other _ _ _ _ hvt] at hr
        rw [hcont, hev j l1]
        exact l2 hr
    · by_cases hvt : v = t
      · subst hvt; rw [goto_pc] at hv; cases hv
      · rw [goto_other _ _ _ _ hvt] at hv
        rw [hcont, hown]
        intro hm
        rcases List.mem_append.1 hm with hm | hm
        · exact hpl.fetch hb v hv hm
        · simp at hm; exact hvt hm
    · by_cases hvt : v = t
      · subst hvt; simp [St.goto, St.setChunk] at hv
      · have hv' : (s.tenant v).chunk = none := by
          simpa [St.goto, St.setChunk, St.loaned, St.setBuf, setf, hvt] using hv
        rw [hcont, hown]
        intro hm
        rcases List.mem_append.1 hm with hm | hm
        · exact hpl.gone hb he v hv' hm
        · simp at hm; exact hvt hm
  · have hpb : ¬ some p = some b := fun h => hbp (by cases h; rfl)
    have hsb : SameBuf b s ((((s.setBuf p y).loaned t p i).setChunk t (some (p, i))).goto t (.store e)) :=
      ⟨by simp [St.goto, St.setChunk, St.loaned, St.setBuf, setf, hbp],
        by simp [St.goto, St.setChunk, St.loaned, St.setBuf, setf, hbp],
        by simp [St.goto, St.setChunk, St.loaned, St.setBuf]⟩
    refine h.keep (Nat.le_refl _) (by rw [hsb.heap]) (by rw [hsb.heap]) (by rw [hsb.heap]) hsb.contents hsb.stored
      (fun v j hj => ?_) (fun hb' => absurd (hb.symm.trans hb') hpb) (fun hb' => absurd (hb.symm.trans hb') hpb)
    by_cases hvt : v = t
    · subst hvt
      simp [St.goto, St.setChunk] at hj
      exact absurd hj.1.symm hbp
    · have hj' : (s.tenant v).chunk = some (b, j) := by
        simpa [St.goto, St.setChunk, St.loaned, St.setBuf, setf, hvt] using hj
      exact ⟨hj', fun hr => Or.inl (by rw [goto_other _ _ _ _ hvt] at hr; exact hr)⟩

/-- `t` stores an event. -/
theorem RingMany.push {t p i : Nat} {e : ε} {y : Buffer ε} (h : RingMany D b s) (hr : Reachable true tid s)
    (hc : (s.tenant t).chunk = some (p, i)) (hm : y.mode = (s.heap p).mode)
    (hl : y.chunks.length = (s.heap p).chunks.length) (hq : y.queue = (s.heap p).queue) :
    RingMany D b (((s.setBuf p y).recorded t p i e).goto t .unlock) := by
  have hb := hr.ctl.chunkBuf t p i hc
  by_cases hbp : b = p
  · subst hbp
    obtain ⟨tail, drop, hpl⟩ := h.line
    have hi := (hpl.chunk t i hc).1
    have hor := hpl.order.push hi (own_chunk hr hc) e
    have hown : ∀ l : List Nat, l.map (ownAt ((s.contents b).modify i (fun p => (p.1, p.2 ++ [e])))) = l.map (ownAt (s.contents b)) := by
      intro l
      apply List.map_congr_left
      intro j _
      unfold ownAt
      rw [List.getElem?_modify]
      cases (s.contents b)[j]? with
      | none => rfl
      | some p => by_cases hij : i = j <;> simp [hij]
    refine ⟨h.lt, by simp [St.goto, St.recorded, St.setBuf, hm, h.ring], tail, drop, ?_,
      fun v j hj => ?_, fun _ v hv => ?_, fun _ he v hv => ?_⟩
    · simp only [St.goto, St.recorded, St.setBuf, setf_self, hl, hq]
      exact hor
    · have hj' : (s.tenant v).chunk = some (b, j) := hj
      obtain ⟨l1, l2⟩ := hpl.chunk v j hj'
      refine ⟨l1, fun hret => ?_⟩
      by_cases hvt : v = t
      · subst hvt; rw [goto_pc] at hret; cases hret
      · rw [goto_other _ _ _ _ hvt] at hret
        have hij : i ≠ j := by
          rintro rfl
          have h1 := own_chunk hr hj'
          have h2 := own_chunk hr hc
          rw [h1] at h2
          cases h2
          exact hvt rfl
        simp only [St.goto, St.recorded, St.setBuf, setf_self]
        have : evAt ((s.contents b).modify i (fun p => (p.1, p.2 ++ [e]))) j = evAt (s.contents b) j := by
          unfold evAt
          rw [List.getElem?_modify]
          simp [hij]
        rw [this]
        exact l2 hret
    · by_cases hvt : v = t
      · subst hvt; rw [goto_pc] at hv; cases hv
      · rw [goto_other _ _ _ _ hvt] at hv
        simp only [St.goto, St.recorded, St.setBuf, setf_self]
        rw [hown]
        exact hpl.fetch hb v hv
    · simp only [St.goto, St.recorded, St.setBuf, setf_self]
      rw [hown]
      exact hpl.gone hb he v hv
  · have hpb : ¬ some p = some b := fun h => hbp (by cases h; rfl)
    have hsb : SameBuf b s (((s.setBuf p y).recorded t p i e).goto t .unlock) :=
      ⟨by simp [St.goto, St.recorded, St.setBuf, setf, hbp],
        by simp [St.goto, St.recorded, St.setBuf, setf, hbp],
        by simp [St.goto, St.recorded, St.setBuf, setf, hbp]⟩
    refine h.keep (Nat.le_refl _) (by rw [hsb.heap]) (by rw [hsb.heap]) (by rw [hsb.heap]) hsb.contents hsb.stored
      (fun v j hj => ⟨hj, fun hret => ?_⟩) (fun hb' => absurd (hb.symm.trans hb') hpb) (fun hb' => absurd (hb.symm.trans hb') hpb)
    by_cases hvt : v = t
    · subst hvt; rw [goto_pc] at hret; cases hret
    · rw [goto_other _ _ _ _ hvt] at hret; exact Or.inl hret

/-- `t` gives chunk `i` back, in `replaceChunk` or in `deregisterThread`. -/
theorem RingMany.ret {t p i : Nat} (h : RingMany D b s) (hr : Reachable true tid s) (hc : (s.tenant t).chunk = some (p, i))
    (hf : p = b → D ∨ (evAt (s.contents b) i).length = chunkSize)
    (h1 : s'.heap = setf s.heap p ((s.heap p).returnChunk i)) (h2 : s'.contents = s.contents)
    (h3 : s'.stored = s.stored) (h4 : s'.nextBuf = s.nextBuf) (h5 : s'.buffer = s.buffer) (h6 : s'.enabled = s.enabled)
    (h7 : ∀ v, (s'.tenant v).chunk = if v = t then none else (s.tenant v).chunk)
    (h8 : ∀ v, v ≠ t → s'.pc v = s.pc v) : RingMany D b s' := by
  have hb := hr.ctl.chunkBuf t p i hc
  by_cases hbp : b = p
  · subst hbp
    obtain ⟨tail, drop, hpl⟩ := h.line
    have hi := (hpl.chunk t i hc).1
    have ho := own_chunk hr hc
    obtain ⟨l1, l2, rfl⟩ := List.append_of_mem hi
    have hnd := hpl.order.own
    rw [List.map_append, List.map_cons, ho] at hnd
    have hmine : some t ∉ (l1 ++ l2).map (ownAt (s.contents b)) := by
      rw [List.map_append]
      exact (List.nodup_cons.1 (nodup_mid hnd)).1
    have hsub : ∀ a, a ∈ (l1 ++ l2).map (ownAt (s.contents b)) → a ∈ (l1 ++ i :: l2).map (ownAt (s.contents b)) := by
      intro a ha
      simp only [List.map_append, List.map_cons, List.mem_append, List.mem_cons] at ha ⊢
      rcases ha with ha | ha
      · exact Or.inl ha
      · exact Or.inr (Or.inr ha)
    have hor := hpl.order.ret (hf rfl)
    refine ⟨by rw [h4]; exact h.lt, ?_, l1 ++ l2, drop, ?_, fun v j hj => ?_, fun hb' v hv => ?_, fun hb' he v hv => ?_⟩
    · rw [h1, setf_self]
      simp [Buffer.returnChunk, h.ring, Buffer.returnChunkRing]
    · rw [h1, h2, h3, setf_self]
      simp only [Buffer.returnChunk, h.ring, Buffer.returnChunkRing]
      exact hor
    · rw [h7] at hj
      by_cases hvt : v = t
      · rw [if_pos hvt] at hj; cases hj
      · rw [if_neg hvt] at hj
        obtain ⟨m1, m2⟩ := hpl.chunk v j hj
        rw [h8 v hvt, h2]
        refine ⟨?_, m2⟩
        have hij : j ≠ i := by
          rintro rfl
          rw [own_chunk hr hj] at ho
          cases ho
          exact hvt rfl
        simp only [List.mem_append, List.mem_cons] at m1 ⊢
        rcases m1 with m1 | m1 | m1
        · exact Or.inl m1
        · exact absurd m1 hij
        · exact Or.inr m1
    · rw [h2]
      by_cases hvt : v = t
      · subst hvt; exact hmine
      · rw [h8 v hvt] at hv
        intro hm
        exact hpl.fetch hb v hv (hsub _ hm)
    · rw [h2]
      by_cases hvt : v = t
      · subst hvt; exact hmine
      · rw [h7, if_neg hvt] at hv
        intro hm
        exact hpl.gone hb (by rw [← h6]; exact he) v hv (hsub _ hm)
  · have hpb : ¬ some p = some b := fun h => hbp (by cases h; rfl)
    refine h.keep (Nat.le_of_eq h4.symm) (by rw [h1, setf_ne _ _ hbp]) (by rw [h1, setf_ne _ _ hbp])
      (by rw [h1, setf_ne _ _ hbp]) (by rw [h2]) (by rw [h3]) (fun v j hj => ?_)
      (fun hb' => absurd (hb.symm.trans (h5.symm.trans hb')) hpb) (fun hb' => absurd (hb.symm.trans (h5.symm.trans hb')) hpb)
    rw [h7] at hj
    by_cases hvt : v = t
    · rw [if_pos hvt] at hj; cases hj
    · rw [if_neg hvt] at hj
      exact ⟨hj, fun hret => Or.inl (by rw [← h8 v hvt]; exact hret)⟩

/-- A step of `t` in `logEvent`. -/
theorem RingMany.logStep {t : Nat} {sp : Bool} (h : RingMany D b s) (hr : Reachable true tid s)
    (hl : (s.pc t).logging = true) (hs : s.logStep tid t sp = .to s') : RingMany D b s' := by
  have go : ∀ {p q : Pc ε}, s.pc t = p → (q.returning = true → p.returning = true) →
      (q.noChunk = true → p.noChunk = true) → RingMany D b (s.goto t q) := by
    intro p q hp h4 h5
    exact h.goto rfl (.refl _ _) rfl rfl rfl (fun _ => rfl) (fun hq i hi => Or.inl (by rw [hp]; exact h4 hq))
      (fun hq _ => Or.inl (by rw [hp]; exact h5 hq))
  have lock : ∀ {p q : Pc ε} (l : ChunkLock.State), s.pc t = p →
      q.returning = false → q.noChunk = false → RingMany D b ((s.setLock t l).goto t q) := by
    intro p q l hp h4 h5
    exact h.goto rfl ⟨rfl, rfl, rfl⟩ rfl rfl rfl (setLock_chunk s t · _)
      (fun hq => by rw [h4] at hq; cases hq) (fun hq => by rw [h5] at hq; cases hq)
  unfold St.logStep at hs
  split at hs
  case h_1 e hp => cases hs; split <;> exact go hp (fun h => by cases h) (fun h => by cases h)
  case h_2 e hp =>
    split at hs
    · cases hs; exact lock _ hp rfl rfl
    · cases hs; exact go hp (fun h => by cases h) (fun h => by cases h)
    · cases hs; exact h
  case h_3 e hp => cases hs; split <;> exact go hp (fun h => by cases h) (fun h => by cases h)
  case h_4 e hp =>
    split at hs
    · rename_i hc
      cases hs
      exact h.goto rfl (.refl _ _) rfl rfl rfl (fun _ => rfl)
        (fun _ i hi => by rw [hc] at hi; cases hi) (fun hq => by cases hq)
    · rename_i p i hc
      split at hs
      case isFalse => cases hs
      obtain ⟨c, evs, hc', hi, hh⟩ := hr.data.chunkAt hc
      rw [hc'] at hs
      cases hs
      split
      · rename_i hf
        refine h.goto rfl (.refl _ _) rfl rfl rfl (fun _ => rfl) (fun _ j hj => Or.inr ?_) (fun hq => by cases hq)
        rw [hc] at hj
        cases hj
        rw [evAt_eq hi]
        exact (Chunk.isFull_iff c evs hh).1 hf
      · exact go hp (fun h => by cases h) (fun h => by cases h)
  case h_5 e hp =>
    split at hs
    · rename_i he
      cases hs
      by_cases hc : (s.tenant t).chunk.isSome = true
      · rw [if_pos hc]; exact go hp (fun _ => rfl) (fun h => by cases h)
      · rw [if_neg hc]
        exact h.goto rfl (.refl _ _) rfl rfl rfl (fun _ => rfl)
          (fun hq => by cases hq) (fun _ _ => Or.inr ⟨he, by simpa using hc⟩)
    · cases hs; exact go hp (fun h => by cases h) (fun h => by cases h)
  case h_6 e hp =>
    split at hs
    · cases hs
    · cases hs; exact go hp (fun _ => rfl) (fun h => by cases h)
  case h_7 e p hp =>
    split at hs
    · cases hs
    · rename_i p' i hc
      split at hs
      · rename_i hm
        cases hs
        have hc' : (s.tenant t).chunk = some (p, i) := by rw [hm.2]; exact hc
        refine h.ret hr hc' (fun hpb => Or.inr ?_) rfl rfl rfl rfl rfl rfl (fun v => ?_)
          (fun v hv => goto_other _ _ _ _ hv)
        · obtain ⟨tail, drop, hpl⟩ := h.line
          subst hpb
          exact (hpl.chunk t i hc').2 (by rw [hp]; rfl)
        · by_cases hv : v = t
          · subst hv; simp [St.goto, St.setChunk]
          · simp [St.goto, St.setChunk, St.setBuf, setf, hv]
      · cases hs
  case h_8 e hp => cases hs; split <;> exact go hp (fun h => by cases h) (fun _ => rfl)
  case h_9 e hp => cases hs; split <;> exact go hp (fun h => by cases h) (fun _ => rfl)
  case h_10 e hp =>
    split at hs
    · cases hs
    · cases hs; exact go hp (fun h => by cases h) (fun _ => rfl)
  case h_11 e p hp =>
    have hb := hr.ctl.ptr t p (by rw [hp]; rfl)
    have hbuf := hr.data.bufs p
    have fail : ∀ {y : Buffer ε} {q : Pc ε}, SameShape y (s.heap p) → y.queue = (s.heap p).queue →
        q.returning = false → q.noChunk = true → RingMany D b ((s.setBuf p y).goto t q) := by
      intro y q hy hq h3 h4
      refine h.keep (Nat.le_refl _) ?_ ?_ ?_ rfl rfl (fun v i hi => ⟨hi, fun hret => ?_⟩) (fun hb' v hv => ⟨hb', ?_⟩)
        (fun hb' he v hv => Or.inr ⟨hb', he, hv⟩)
      · by_cases hbp : b = p
        · subst hbp; simp [St.goto, St.setBuf, hy.2.2]
        · simp [St.goto, St.setBuf, setf, hbp]
      · by_cases hbp : b = p
        · subst hbp; simp [St.goto, St.setBuf, hq]
        · simp [St.goto, St.setBuf, setf, hbp]
      · by_cases hbp : b = p
        · subst hbp; simp [St.goto, St.setBuf, hy.2.1]
        · simp [St.goto, St.setBuf, setf, hbp]
      · by_cases hvt : v = t
        · subst hvt; rw [goto_pc, h3] at hret; cases hret
        · rw [goto_other _ _ _ _ hvt] at hret; exact Or.inl hret
      · by_cases hvt : v = t
        · subst hvt; left; rw [hp]; rfl
        · rw [goto_other _ _ _ _ hvt] at hv; exact Or.inl hv
    split at hs
    · split at hs
      · rename_i hmode
        split at hs
        · rename_i y i hg
          cases hs
          obtain ⟨k1, k2, k3, k4, _⟩ := hbuf.claim hg
          have hsh := SameShape.ringClaim (s.heap p) (tid t)
          rw [hg] at hsh
          refine h.loan hb (by rw [hp]; rfl) k4 hsh.2.1 (fun hpb tail drop ht hor => ⟨?_, drop, ?_⟩)
          · intro hm
            have := hor.lt (List.mem_append_right _ hm)
            omega
          · rw [k1, if_neg (Nat.lt_irrefl _), k3]
            refine hor.claim ?_ ht
            have hle := k2.length_le
            rw [hsh.2.1] at hle
            simp at hle
            omega
        · rename_i y hg
          cases hs
          have hsh := SameShape.ringClaim (s.heap p) (tid t)
          rw [hg] at hsh
          exact fail hsh (hbuf.claimNone hg).2.2.1 rfl rfl
      · rename_i hnr
        have hpb : p ≠ b := by rintro rfl; exact hnr h.ring
        split at hs
        · rename_i y i hg
          cases hs
          obtain ⟨k1, k2, k3, k4, _⟩ := hbuf.getFixed hg
          have hsh := SameShape.getChunkFixed (s.heap p) (tid t)
          rw [hg] at hsh
          exact h.loan hb (by rw [hp]; rfl) k4 hsh.2.1 (fun e => absurd e hpb)
        · rename_i y r hn hg
          cases hs
          have hsh := SameShape.getChunkFixed (s.heap p) (tid t)
          rw [hg] at hsh
          exact fail hsh (hbuf.getFixedNull hg (fun i e => hn i (by rw [e]))).2.2.2.1 rfl rfl
    · cases hs
  case h_12 e p hp =>
    have hb := hr.ctl.ptr t p (by rw [hp]; rfl)
    have hbuf := hr.data.bufs p
    split at hs
    · split at hs
      · rename_i y i hg
        cases hs
        obtain ⟨k1, k2, k3, k4, _⟩ := hbuf.take hg
        have hsh := SameShape.ringTake hg
        refine h.loan hb (by rw [hp]; rfl) k4 hsh.2.1 (fun hpb tail drop ht hor => ?_)
        rw [k1] at hor
        refine ⟨fun hm => ?_, fun u => drop u ++ evOf (s.contents p) u i, ?_⟩
        · have := hor.nodup
          rw [List.cons_append] at this
          exact (List.nodup_cons.1 this).1 (List.mem_append_right _ hm)
        · rw [if_pos k3]
          refine hor.take ?_ ht
          have hw := hr.waits t e p hp
          have hle := hbuf.length_eq
          have : (s.heap p).size = (s.heap p).chunks.length := rfl
          omega
      · cases hs; exact h
    · cases hs
  case h_13 f hp => cases hs; exact go hp (fun h => by cases h) (fun h => by cases h)
  case h_14 f g hp => cases hs; exact lock _ hp rfl rfl
  case h_15 f g hp =>
    split at hs
    · cases hs
      exact h.goto (x := { s with owner := some t }) rfl ⟨rfl, rfl, rfl⟩ rfl rfl rfl (fun _ => rfl)
        (fun hq => by cases hq) (fun hq => by cases hq)
    · cases hs; exact go hp (fun h => by cases h) (fun h => by cases h)
  case h_16 f g hp => rw [hp] at hl; cases hl
  case h_17 e hp =>
    split at hs
    · cases hs
    · rename_i p i hc
      split at hs
      · split at hs
        · rename_i y hy
          cases hs
          have hsh := SameShape.pushAt (s.heap p) i e
          rw [hy] at hsh
          obtain ⟨evs, hi⟩ := hr.data.owns t p i hc
          obtain ⟨y', k1, k2, k3, k4, _⟩ := (hr.data.bufs p).push hi (hr.data.room t e p i evs hp hc hi) e
          rw [hy] at k1
          cases k1
          exact h.push hr hc k4 hsh.2.1 k3
        · cases hs
      · cases hs
  case h_18 hp => cases hs; exact lock _ hp rfl rfl
  case h_19 => cases hs

/-- A thread that deregisters gives its chunk back. -/
theorem RingMany.dereg {t i : Nat} {c : Choice ε} (h : RingMany D b s) (hr : Reachable true tid s)
    (hp : s.pc t = .deregBody) (hc : (s.tenant t).chunk = some (b, i)) (hd : D)
    (hs : s.next true tid t c = .to s') : RingMany D b s' := by
  have hb := hr.ctl.chunkBuf t b i hc
  have hi : (s.tenant t).initialised = true := hr.ctl.chunkInit t (by rw [hc]; simp)
  have key : ∀ sp, (match s.logStep tid t sp with
      | .blocked => s.heldStep tid t sp
      | o => o) = .to s' → RingMany D b s' := by
    intro sp hs
    have hx : ∃ x, s.deregisterBody tid t = some x ∧ s' = x.goto t .release := by
      simp only [St.logStep, St.heldStep, hp] at hs
      split at hs
      · rename_i x hx; cases hs; exact ⟨x, hx, rfl⟩
      · cases hs
    obtain ⟨x, hx, rfl⟩ := hx
    simp only [St.deregisterBody, hi, if_true, St.returnOwn, hc, hb] at hx
    have hx' : ∀ v, (x.tenant v).chunk = if v = t then none else (s.tenant v).chunk := by
      intro v
      split at hx <;> cases hx <;> (by_cases hv : v = t <;> simp [St.setBuf, setf, hv])
    refine h.ret hr hc (fun _ => Or.inl hd) ?_ ?_ ?_ ?_ ?_ ?_ hx' (fun v hv => ?_)
    all_goals (split at hx <;> cases hx <;> first | rfl | exact goto_other _ _ _ _ hv)
  cases c with
  | step => exact key false hs
  | spurious => exact key true hs
  | free a =>
    simp only [St.next] at hs
    split at hs <;> cases hs
    exact h.keep (Nat.le_refl _) rfl rfl rfl rfl rfl (fun _ _ hi => ⟨hi, Or.inl⟩) (fun hb' _ hv => ⟨hb', Or.inl hv⟩)
      (fun hb' he _ hv => Or.inr ⟨hb', he, hv⟩)
  | _ => simp [St.next, hp, St.isIdle] at hs

/-- A step of a thread in `logEvent`. -/
theorem next_in_log {u : Nat} {c : Choice ε} (hs : s.next true tid u c = .to s') (hl : (s.pc u).logging = true) :
    (∃ sp, s.logStep tid u sp = .to s') ∨ (∃ a, s' = { s with status := setf s.status a .freed }) := by
  have hnl : ∀ q, s.pc u = q → (q.logging = true) → (∃ sp, s.logStep tid u sp = .to s') ∨
      (∃ a, s' = { s with status := setf s.status a .freed }) := by
    intro q hq hl
    have key : ∀ sp, (match s.logStep tid u sp with
        | .blocked => s.heldStep tid u sp
        | o => o) = .to s' → (∃ sp, s.logStep tid u sp = .to s') ∨ (∃ a, s' = { s with status := setf s.status a .freed }) := by
      intro sp hs
      split at hs
      · exfalso
        unfold St.heldStep at hs
        split at hs <;> first | (rename_i hp; rw [hp] at hq; subst hq; cases hl; done) | cases hs
      · exact Or.inl ⟨sp, hs⟩
    have idle : ¬ s.isIdle u = true := by
      intro hi; rw [isIdle_iff.1 hi] at hq; subst hq; cases hl
    cases c with
    | step => exact key false hs
    | spurious => exact key true hs
    | free a =>
      simp only [St.next] at hs
      split at hs <;> cases hs
      exact Or.inr ⟨a, rfl⟩
    | log e => simp [St.next, idle] at hs
    | lock => simp [St.next, idle] at hs
    | register n => simp [St.next, idle] at hs
    | deregister => simp [St.next, idle] at hs
    | _ => exfalso; simp only [St.next] at hs; split at hs <;> first | (rename_i hp; rw [hp] at hq; subst hq; cases hl; done) | cases hs
  exact hnl _ rfl hl

/-- Any step. Unless `D`, no thread is deregistering. -/
theorem RingMany.next {u : Nat} {c : Choice ε} (h : RingMany D b s) (hr : Reachable true tid s)
    (hs : s.next true tid u c = .to s') (hd : D ∨ s.pc u ≠ .deregBody) : RingMany D b s' := by
  by_cases hl : (s.pc u).logging = true
  · rcases next_in_log hs hl with ⟨sp, hs'⟩ | ⟨a, rfl⟩
    · exact h.logStep hr hl hs'
    · exact h.keep (Nat.le_refl _) rfl rfl rfl rfl rfl (fun _ _ hi => ⟨hi, Or.inl⟩) (fun hb' _ hv => ⟨hb', Or.inl hv⟩)
        (fun hb' he _ hv => Or.inr ⟨hb', he, hv⟩)
  · have hl' : (s.pc u).logging = false := by simpa using hl
    by_cases hc : ∃ e, c = .log e
    · obtain ⟨e, rfl⟩ := hc
      simp only [St.next] at hs
      split at hs
      · cases hs
        exact h.goto rfl (.refl _ _) rfl rfl rfl (fun _ => rfl) (fun hq => by cases hq) (fun hq => by cases hq)
      · cases hs
    · by_cases hdr : s.pc u = .deregBody ∧ ∃ i, (s.tenant u).chunk = some (b, i)
      · obtain ⟨hp, i, hi⟩ := hdr
        exact h.dereg hr hp hi (hd.resolve_right (fun h => h hp)) hs
      · have hd' : s.pc u = .deregBody → ∀ i, (s.tenant u).chunk ≠ some (b, i) := fun hp i hi => hdr ⟨hp, i, hi⟩
        exact h.quiet hr hs (next_quiet hs hl' (fun e he => hc ⟨e, he⟩) (Nat.ne_of_lt h.lt) hd') hd'

end Phosphor.TLog
