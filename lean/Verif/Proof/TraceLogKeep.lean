import Verif.Proof.TraceLogAny
import Verif.Proof.TraceLogData
/-
Every step that is not undefined keeps the data invariant, whatever the callbacks do.
-/
namespace Phosphor.TLog
variable {ε : Type} {tid : Nat → Nat} {s s' : St ε} {t : Nat}

/-- The chunk a thread holds has its events. -/
theorem Data.chunkAt (h : Data tid s) {b i : Nat} (hc : (s.tenant t).chunk = some (b, i)) :
    ∃ (c : Chunk ε) (evs : List ε), (s.heap b).chunkAt i = .ok c ∧
      (s.contents b)[i]? = some (t, evs) ∧ c.Holds evs := by
  obtain ⟨evs, hi⟩ := h.owns t b i hc
  obtain ⟨c, h1, _, h3⟩ := (h.bufs b).chunkAt hi
  exact ⟨c, evs, by simp [Buffer.chunkAt, h1], hi, h3⟩

theorem length_lt_of_not_full {c : Chunk ε} {evs : List ε} (h : c.Holds evs) (hf : ¬ c.isFull = true) :
    evs.length < chunkSize := by
  rw [Chunk.isFull_iff c evs h] at hf
  have := h.room
  omega

theorem Data.same (h : Data tid s) (h1 : s'.heap = s.heap) (h2 : s'.contents = s.contents)
    (h3 : s'.stored = s.stored) (h4 : s'.nextBuf = s.nextBuf) (h5 : s'.tenant = s.tenant)
    (h6 : s'.pc = s.pc) : Data tid s' :=
  h.mono h1 h2 h3 h4 (fun u c hc => by rw [h5] at hc; exact hc)
    (fun u e hp => Or.inl (by rw [h6] at hp; exact hp))

theorem Data.beginStop (h : Data tid s) {sh : Bool} {full : Option (Option Nat)} {st : List Frame} :
    Data tid (s.beginStop t sh full st) := by
  have : Data tid { s with enabled := false, hist := .stop sh full :: s.hist } :=
    h.same rfl rfl rfl rfl rfl rfl
  exact this.goto (by simp)

theorem Data.pop (h : Data tid s) {st : List Frame} : Data tid (s.pop t st) := by
  unfold St.pop
  split <;> exact h.goto (by simp)

theorem Data.unwind (h : Data tid s) {st : List Frame} : Data tid (s.unwind t st) := by
  rw [unwind_eq]
  split <;> exact h.goto (by simp)

theorem Data.logStep (hd : Data tid s) (h : Ctl0 s) {sp : Bool} (hs : s.logStep tid t sp = .to s') :
    Data tid s' := by
  unfold St.logStep at hs
  split at hs
  case h_1 e hp => cases hs; apply hd.goto; intro e'; split <;> simp
  case h_2 e hp =>
    split at hs
    · cases hs; exact hd.setLock.goto (by simp)
    · cases hs; exact hd.goto (by simp)
    · cases hs; exact hd
  case h_3 e hp => cases hs; apply hd.goto; intro e'; split <;> simp
  case h_4 e hp =>
    split at hs
    · cases hs; exact hd.goto (by simp)
    · rename_i b i hc
      obtain ⟨c, evs, hc', hi, hh⟩ := hd.chunkAt hc
      split at hs
      case isFalse => cases hs
      rw [hc'] at hs
      cases hs
      split
      · exact hd.goto (by simp)
      · rename_i hf
        refine hd.mono rfl rfl rfl rfl (fun _ _ h => h) ?_
        intro u e' hu
        by_cases hut : u = t
        · subst hut
          right
          intro b' i' evs' hc2 hi2
          rw [hc] at hc2; cases hc2
          rw [hi] at hi2; cases hi2
          exact length_lt_of_not_full hh hf
        · left
          simpa [St.goto, setf, hut] using hu
  case h_5 e hp =>
    split at hs
    · cases hs; apply hd.goto; intro e'; split <;> simp
    · cases hs; exact hd.goto (by simp)
  case h_6 e hp =>
    split at hs
    · cases hs
    · cases hs; exact hd.goto (by simp)
  case h_7 e p hp =>
    split at hs
    · cases hs
    · rename_i b i hc
      split at hs
      · rename_i hmp
        obtain ⟨_, rfl⟩ := hmp
        cases hs
        obtain ⟨evs, hi⟩ := hd.owns t p i hc
        have hlt : i < (s.contents p).length := by
          rcases Nat.lt_or_ge i (s.contents p).length with hl | hl
          · exact hl
          · rw [List.getElem?_eq_none hl] at hi; cases hi
        obtain ⟨r1, r2, r3, r4, _⟩ := (hd.bufs p).returned hlt (hd.queue t p i hc)
        have hd' := hd.dropChunk (u := t)
        have hset := hd'.setBuf (p := p) (x := (s.heap p).returnChunk i) r1 (by
          intro u j huc hj
          have hut : u ≠ t := by
            rintro rfl; simp [St.setChunk, setf] at huc
          have huc' : (s.tenant u).chunk = some (p, j) := by
            simpa [St.setChunk, setf, hut] using huc
          rcases r2 j hj with rfl | hj
          · obtain ⟨evs', hu⟩ := hd.owns u p j huc'
            rw [hi] at hu; cases hu; exact hut rfl
          · exact hd.queue u p j huc' hj) r3 r4
        exact hset.goto (by simp)
      · cases hs
  case h_8 e hp => cases hs; apply hd.goto; intro e'; split <;> simp
  case h_9 e hp => cases hs; apply hd.goto; intro e'; split <;> simp
  case h_10 e hp =>
    split at hs
    · cases hs
    · cases hs; exact hd.goto (by simp)
  case h_11 e p hp =>
    have hn := h.noChunk t (by rw [hp]; rfl)
    have hnew : ∀ u, (s.tenant u).chunk ≠ some (p, (s.contents p).length) := by
      intro u hu
      obtain ⟨evs, hi⟩ := hd.owns u p _ hu
      simp at hi
    split at hs
    · split at hs
      · rename_i hmode
        split at hs
        · rename_i x i hx
          cases hs
          obtain ⟨rfl, r1, r2, r3, r4⟩ := (hd.bufs p).claim hx
          refine hd.loan hn (cont' := s.contents p ++ [(t, [])]) (by simp) (Nat.le_refl _) r1 hnew ?_ ?_
            (fun _ => rfl) r3 r4
          · intro u j hu; rw [r2]; exact hd.queue u p j hu
          · rw [r2]; intro hq; exact Nat.lt_irrefl _ ((hd.bufs p).qlt _ hq)
        · rename_i x hx
          cases hs
          obtain ⟨_, r1, r2, r3, r4⟩ := (hd.bufs p).claimNone hx
          exact (hd.setBuf r1 (by intro u j hu; rw [r2]; exact hd.queue u p j hu) r3 r4).goto (by simp)
      · split at hs
        · rename_i x i hx
          cases hs
          obtain ⟨rfl, r1, r2, r3, r4⟩ := (hd.bufs p).getFixed hx
          refine hd.loan hn (cont' := s.contents p ++ [(t, [])]) (by simp) (Nat.le_refl _) r1 hnew ?_ ?_
            (fun _ => rfl) r3 r4
          · intro u j hu; rw [r2]; exact hd.queue u p j hu
          · rw [r2]; intro hq; exact Nat.lt_irrefl _ ((hd.bufs p).qlt _ hq)
        · rename_i x r hr hx
          cases hs
          obtain ⟨_, _, r1, r2, r3, r4⟩ := (hd.bufs p).getFixedNull hx (by
            rintro i rfl; exact hr i rfl)
          exact (hd.setBuf r1 (by intro u j hu; rw [r2]; exact hd.queue u p j hu) r3 r4).goto (by simp)
    · cases hs
  case h_12 e p hp =>
    have hn := h.noChunk t (by rw [hp]; rfl)
    split at hs
    · split at hs
      · rename_i x i hx
        cases hs
        obtain ⟨r1, r2, r3, r4, r5⟩ := (hd.bufs p).take hx
        have hnd := (hd.bufs p).qnodup
        rw [r1] at hnd
        refine hd.loan hn (cont' := (s.contents p).set i (t, [])) (by rw [if_pos r3]) (by omega) r2 ?_ ?_ ?_
          ?_ r4 r5
        · intro u hu; exact hd.queue u p i hu (by rw [r1]; simp)
        · intro u j hu hj; exact hd.queue u p j hu (by rw [r1]; simp [hj])
        · exact (List.nodup_cons.1 hnd).1
        · intro hr
          rw [r4] at hr
          have := (hd.bufs p).qfixed ((hd.bufs p).mode.resolve_right hr)
          rw [r1] at this; cases this
      · cases hs; exact hd
    · cases hs
  case h_13 => cases hs; exact hd.goto (by simp)
  case h_14 => cases hs; exact hd.setLock.goto (by simp)
  case h_15 =>
    split at hs
    · cases hs
      have : Data tid { s with owner := some t } := hd.mono rfl rfl rfl rfl (fun _ _ h => h) (fun _ _ h => Or.inl h)
      exact this.goto (by simp)
    · cases hs; exact hd.goto (by simp)
  case h_16 =>
    split at hs
    · cases hs; exact hd.goto (by simp)
    · split at hs
      · cases hs
        exact hd.beginStop
      · cases hs; exact hd.goto (by simp)
  case h_17 e hp =>
    split at hs
    · cases hs
    · rename_i b i hc
      obtain ⟨x, hx, hd'⟩ := hd.store hp hc
      split at hs
      · rw [hx] at hs
        cases hs
        exact hd'
      · cases hs
  case h_18 => cases hs; exact hd.setLock.goto (by simp)
  case h_19 => cases hs

/-- How `deregisterThread` changes the buffers. -/
theorem Data.deregister (hd : Data tid s) (hl : ∀ b i, (s.tenant t).chunk = some (b, i) → s.buffer = some b) :
    ∃ s', s.deregisterBody tid t = some s' ∧ Data tid (s'.goto t .release) := by
  unfold St.deregisterBody
  by_cases hi : (s.tenant t).initialised = true
  · rw [if_pos hi]
    have key : ∃ x, s.returnOwn t = some x ∧
        Data tid { x with tenant := setf x.tenant t { x.tenant t with chunk := none, initialised := false } } := by
      have hdrop : ∀ x : St ε, Data tid (x.setChunk t none) →
          Data tid { x with tenant := setf x.tenant t { x.tenant t with chunk := none, initialised := false } } := by
        intro x hx
        refine hx.mono rfl rfl rfl rfl ?_ (fun _ _ h => Or.inl h)
        intro u c hc
        simp only [St.setChunk, setf] at hc ⊢
        split at hc
        · simp at hc
        · rw [if_neg (by assumption)]; exact hc
      cases hc : (s.tenant t).chunk with
      | none =>
        exact ⟨s, by simp only [St.returnOwn, hc], hdrop s hd.dropChunk⟩
      | some c =>
        obtain ⟨b, i⟩ := c
        have hb := hl b i hc
        refine ⟨s.setBuf b ((s.heap b).returnChunk i), by simp only [St.returnOwn, hc, hb, if_true], ?_⟩
        · obtain ⟨evs, hi⟩ := hd.owns t b i hc
          have hlt : i < (s.contents b).length := by
            rcases Nat.lt_or_ge i (s.contents b).length with hl | hl
            · exact hl
            · rw [List.getElem?_eq_none hl] at hi; cases hi
          obtain ⟨r1, r2, r3, r4, _⟩ := (hd.bufs b).returned hlt (hd.queue t b i hc)
          have hd' := hd.dropChunk (u := t)
          have hset := hd'.setBuf (p := b) (x := (s.heap b).returnChunk i) r1 (by
            intro u j huc hj
            have hut : u ≠ t := by
              rintro rfl; simp [St.setChunk, setf] at huc
            have huc' : (s.tenant u).chunk = some (b, j) := by
              simpa [St.setChunk, setf, hut] using huc
            rcases r2 j hj with rfl | hj
            · obtain ⟨evs', hu⟩ := hd.owns u b j huc'
              rw [hi] at hu; cases hu; exact hut rfl
            · exact hd.queue u b j huc' hj) r3 r4
          exact hdrop _ hset
    obtain ⟨x, he, hk⟩ := key
    rw [he]
    dsimp only
    split
    · refine ⟨_, rfl, Data.goto ?_ (by simp)⟩
      exact hk.same rfl rfl rfl rfl rfl rfl
    · refine ⟨_, rfl, Data.goto ?_ (by simp)⟩
      exact hk.same rfl rfl rfl rfl rfl rfl
  · rw [if_neg hi]
    refine ⟨_, rfl, Data.goto ?_ (by simp)⟩
    exact hd.same rfl rfl rfl rfl rfl rfl

/-- `deregisterThread` returns a chunk of the buffer, or it is undefined. -/
theorem deregister_chunk {x : St ε} (hx : s.deregisterBody tid t = some x) :
    (∀ b i, (s.tenant t).chunk = some (b, i) → s.buffer = some b) ∨
    (s.tenant t).initialised = false ∨ s.buffer = none := by
  unfold St.deregisterBody at hx
  split at hx
  · split at hx
    · cases hx
    · rename_i y hy
      unfold St.returnOwn at hy
      split at hy
      · rename_i hc; left; intro b i h; rw [hc] at h; cases h
      · rename_i b i hc
        split at hy
        · right; right; assumption
        · rename_i p hb
          split at hy
          · rename_i hpb; subst hpb
            left; intro b' i' h; rw [hc] at h; cases h; exact hb
          · cases hy
  · rename_i hi; right; left; simpa using hi

theorem Data.registerBody (h : Data tid s) {n : Str} :
    Data tid ((s.registerBody tid t n).goto t .release) := by
  refine Data.goto ?_ (by simp)
  unfold St.registerBody
  split
  · exact h.same rfl rfl rfl rfl rfl rfl
  · have : Data tid { s with tenant := setf s.tenant t { s.tenant t with initialised := true } } := by
      refine h.mono rfl rfl rfl rfl ?_ (fun _ _ h => Or.inl h)
      intro u c hc
      simp only [setf] at hc
      split at hc
      · subst_vars; exact hc
      · exact hc
    dsimp only
    split <;> exact this.same rfl rfl rfl rfl rfl rfl

theorem Ctl0.chunk_new (h : Ctl0 s) (u b i : Nat) (hc : (s.tenant u).chunk = some (b, i)) :
    b ≠ s.nextBuf := by
  rintro rfl
  have h1 := (h.fresh s.nextBuf).2 (Nat.le_refl _)
  rcases h.chunk u _ i hc with h2 | h2 <;> rw [h1] at h2 <;> cases h2

theorem Data.heldStep (hd : Data tid s) (h : Ctl0 s) {other : Bool} :
    ∀ s', s.heldStep tid t other = .to s' → Data tid s' := by
  unfold St.heldStep
  split
  case h_1 n hp =>
    rintro s' ⟨⟩; exact hd.registerBody
  case h_2 hp =>
    intro s' hs'
    have hl : ∀ b i, (s.tenant t).chunk = some (b, i) → s.buffer = some b := by
      split at hs'
      · rename_i x hx
        intro b i hc
        rcases deregister_chunk hx with h1 | h1 | h1
        · exact h1 b i hc
        · have := h.chunkInit t (by rw [hc]; simp)
          rw [h1] at this; cases this
        · rcases h.comm t (Or.inl (by rw [hc]; simp)) with h2 | h2
          · exact absurd h1 (h.hasBuf h2)
          · have ho := (h.own t).2 (by rw [hp]; rfl)
            simp only [St.pend, ho, hp, Pc.pending] at h2
            simp at h2
      · cases hs'
    obtain ⟨s1, h1, h2⟩ := hd.deregister (tid := tid) hl
    rw [h1] at hs'
    cases hs'
    exact h2
  case h_3 hp =>
    rintro s' ⟨⟩
    have : Data tid { s with owner := none } := hd.same rfl rfl rfl rfl rfl rfl
    exact this.goto (by simp)
  case h_4 sh st hp =>
    split
    · rintro s' ⟨⟩
      refine Data.goto ?_ (by simp)
      exact hd.same rfl rfl rfl rfl rfl rfl
    · rintro s' ⟨⟩
      apply Data.pop
      exact hd.same rfl rfl rfl rfl rfl rfl
  case h_5 u rest sh st hp =>
    split
    · rintro s' ⟨⟩; exact hd.goto (by simp)
    · split
      · rintro s' ⟨⟩; exact hd.setLock.goto (by simp)
      · rintro s' ⟨⟩; exact hd
  case h_6 u rest sh st hp =>
    rintro s' ⟨⟩; exact hd.dropChunk.goto (by simp)
  case h_7 u rest sh st hp =>
    rintro s' ⟨⟩; exact hd.setLock.goto (by simp)
  case h_8 st hp =>
    rintro s' ⟨⟩
    exact (hd.createBuffer h.gen h.chunk_new _).goto (by simp)
  case h_9 st hp =>
    rintro s' ⟨⟩
    apply Data.pop
    exact hd.same rfl rfl rfl rfl rfl rfl
  case h_10 => simp

theorem Data.step (hd : Data tid s) (h : Ctl0 s) (sp : Bool) :
    ∀ s', (match s.logStep tid t sp with
      | .blocked => s.heldStep tid t sp
      | o => o) = .to s' → Data tid s' := by
  cases hl : s.logStep tid t sp with
  | blocked => exact hd.heldStep h
  | ub => simp
  | to s1 =>
    intro s' hs'
    simp at hs'
    subst hs'
    exact hd.logStep h hl

theorem Data.next (hd : Data tid s) (h : Ctl0 s) {pol : Bool} {c : Choice ε} :
    ∀ s', s.next pol tid t c = .to s' → Data tid s' := by
  unfold St.next
  cases c with
  | step => exact hd.step h false
  | spurious => exact hd.step h true
  | log e =>
    dsimp only
    split
    · rintro s' ⟨⟩; exact hd.goto (by simp)
    · simp
  | lock =>
    dsimp only
    split
    · rintro s' ⟨⟩
      refine Data.goto ?_ (by simp)
      exact hd.same rfl rfl rfl rfl rfl rfl
    · simp
  | register n =>
    dsimp only
    split
    · rintro s' ⟨⟩
      refine Data.goto ?_ (by simp)
      exact hd.same rfl rfl rfl rfl rfl rfl
    · simp
  | deregister =>
    dsimp only
    split
    · rintro s' ⟨⟩
      refine Data.goto ?_ (by simp)
      exact hd.same rfl rfl rfl rfl rfl rfl
    · simp
  | free b =>
    dsimp only
    split
    · rintro s' ⟨⟩
      exact hd.same rfl rfl rfl rfl rfl rfl
    · simp
  | start cfg =>
    dsimp only
    have hc : Data tid { s with config := cfg, hist := .configure cfg :: s.hist } := hd.same rfl rfl rfl rfl rfl rfl
    split
    · split
      · simp
      · split
        · split
          · rintro s' ⟨⟩
            exact hd.same rfl rfl rfl rfl rfl rfl
          · split
            · rintro s' ⟨⟩
              exact hc.beginStop
            · rintro s' ⟨⟩
              exact hc.goto (by simp)
        · simp
    · simp
  | stop sh =>
    dsimp only
    split
    · split
      · rintro s' ⟨⟩; exact hd.beginStop
      · rintro s' ⟨⟩; exact hd
    · simp
  | getBuffer =>
    dsimp only
    split
    · split
      · rintro s' ⟨⟩; exact hd.same rfl rfl rfl rfl rfl rfl
      · rintro s' ⟨⟩; exact hd.same rfl rfl rfl rfl rfl rfl
    · simp
  | getTraceContext =>
    dsimp only
    split
    · split
      · rintro s' ⟨⟩; exact hd.same rfl rfl rfl rfl rfl rfl
      · rintro s' ⟨⟩; exact hd.same rfl rfl rfl rfl rfl rfl
    · simp
  | ret =>
    dsimp only
    split
    · rintro s' ⟨⟩; exact hd.pop
    · simp
  | throw =>
    dsimp only
    split
    · rintro s' ⟨⟩; exact hd.unwind
    · simp

theorem Reachable.data {pol : Bool} (h : Reachable pol tid s) : Data tid s := by
  induction h with
  | init => exact Data.init
  | step h hs ih => exact ih.next h.ctl0 _ hs

end Phosphor.TLog
