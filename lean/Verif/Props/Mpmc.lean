import Verif.Proof.Mpmc
/-
Properties C21, C22: the bounded return queue, for every capacity 2^k with k ≥ 1 (the
capacities its constructor asserts), any number of threads and every interleaving.
-/
namespace Phosphor.Mpmc
variable {α : Type}

theorem two_le {k : Nat} (hk : 1 ≤ k) : 2 ≤ 2 ^ k := by
  calc 2 = 2 ^ 1 := rfl
    _ ≤ 2 ^ k := Nat.pow_le_pow_right (by omega) hk

/-- C21: a finished dequeue that claimed the `p`-th dequeue position carries the item of the
`p`-th enqueue claim: first in, first out, nothing invented. -/
theorem C21_fifo {k : Nat} (hk : 1 ≤ k) {s : St α} (h : Reachable (2 ^ k) s) (p : Nat)
    (v : Option α) (hg : (p, v) ∈ s.got) : p < s.log.length ∧ v = s.log[p]? := by
  have hi := inv_reachable hk h
  obtain ⟨h1, h2⟩ := hi.gotOk p v hg
  have h3 := hi.relLt p h1
  have h4 := hi.deqLe
  exact ⟨by rw [hi.len]; omega, h2.symm⟩

/-- C21: so every finished dequeue returned an item that some enqueue call stored. -/
theorem C21_no_invention {k : Nat} (hk : 1 ≤ k) {s : St α} (h : Reachable (2 ^ k) s) (p : Nat)
    (v : Option α) (hg : (p, v) ∈ s.got) : ∃ x, v = some x ∧ x ∈ s.log := by
  obtain ⟨h1, h2⟩ := C21_fifo hk h p v hg
  rw [List.getElem?_eq_getElem h1] at h2
  exact ⟨_, h2, List.getElem_mem h1⟩

/-- C21: no two finished dequeues took the same item (position). -/
theorem C21_once {k : Nat} (hk : 1 ≤ k) {s : St α} (h : Reachable (2 ^ k) s) :
    (s.got.map Prod.fst).Nodup :=
  (inv_reachable hk h).gotNodup

/-- C21: the history is only appended to by the step in which an `enqueue` call of some
thread claims its position, with the item of that call; it is never changed otherwise. -/
theorem C21_log {n : Nat} {s s' : St α} (hst : Step n s s') :
    s'.log = s.log ∨ ∃ t x pos, s.pc t = .enqCas x pos ∧ s'.pc t = .enqWrite x pos ∧
      s'.log = s.log ++ [x] := by
  cases hst with
  | @enqCasOk t x pos hpc heq => exact Or.inr ⟨t, x, pos, hpc, by simp [St.goto], rfl⟩
  | _ => exact Or.inl rfl

/-- C21: positions are claimed one after the other on both sides. -/
theorem C21_positions {k : Nat} (hk : 1 ≤ k) {s s' : St α} (h : Reachable (2 ^ k) s)
    (hst : Step (2 ^ k) s s') :
    s.log.length = s.enqPos ∧ (s'.enqPos = s.enqPos ∨ s'.enqPos = s.enqPos + 1) ∧
    (s'.deqPos = s.deqPos ∨ s'.deqPos = s.deqPos + 1) := by
  refine ⟨(inv_reachable hk h).len, ?_, ?_⟩
  · cases hst with
    | @enqCasOk t x pos hpc heq => subst heq; exact Or.inr rfl
    | _ => exact Or.inl rfl
  · cases hst with
    | @deqCasOk t pos hpc heq => subst heq; exact Or.inr rfl
    | _ => exact Or.inl rfl

/-- C22: never more items than the capacity, never fewer than none. -/
theorem C22_bounds {k : Nat} (hk : 1 ≤ k) {s : St α} (h : Reachable (2 ^ k) s) :
    s.deqPos ≤ s.enqPos ∧ s.enqPos ≤ s.deqPos + 2 ^ k := by
  have hi := inv_reachable hk h
  refine ⟨hi.deqLe, ?_⟩
  have hn := two_le hk
  generalize 2 ^ k = n at *
  by_cases hlt : s.enqPos ≤ n
  · omega
  · have := hi.relLt _ (hi.room (s.enqPos - 1) (by omega) (by omega))
    omega

/-- C22: when an enqueuer stores position `p` over an older item of the same cell, that item
has been read: its dequeue is finished. -/
theorem C22_no_overwrite {k : Nat} (hk : 1 ≤ k) {s : St α} (h : Reachable (2 ^ k) s) {t p : Nat}
    {x : α} (hpc : s.pc t = .enqWrite x p) {q : Nat} (hq : q < p) (hm : q % 2 ^ k = p % 2 ^ k) :
    s.rel q = true := by
  have hi := inv_reachable hk h
  have hw := hi.wlt t p (by rw [hpc]; rfl)
  have hcl := hi.claimed p hw.1 hw.2
  have hpub : s.pub q = true := by
    cases hx : s.pub q with
    | true => rfl
    | false =>
      have := hi.claimed q (by omega) hx
      rw [hm, hcl] at this; omega
  cases hr : s.rel q with
  | true => rfl
  | false =>
    have hn := two_le hk
    have := (hi.full q hpub hr).1
    rw [hm, hcl] at this
    exact absurd this (mod_succ_ne hn hm.symm)

/-- C22: no data race on the item cells: a thread about to write a cell is never at the same
time as another thread about to read or write the same cell. -/
theorem C22_no_race {k : Nat} (hk : 1 ≤ k) {s : St α} (h : Reachable (2 ^ k) s) {t u p q : Nat}
    {x : α} (htu : t ≠ u) (hpc : s.pc t = .enqWrite x p)
    (hu : (∃ y, s.pc u = .enqWrite y q) ∨ s.pc u = .deqRead q) :
    idx (2 ^ k) p ≠ idx (2 ^ k) q := by
  have hi := inv_reachable hk h
  have hn := two_le hk
  rw [idx_eq, idx_eq]
  intro hm
  have hw := hi.wlt t p (by rw [hpc]; rfl)
  have hcl := hi.claimed p hw.1 hw.2
  rcases hu with ⟨y, hu⟩ | hu
  · have hw' := hi.wlt u q (by rw [hu]; rfl)
    have hcl' := hi.claimed q hw'.1 hw'.2
    rw [← hm, hcl] at hcl'
    subst hcl'
    exact htu (hi.wuniq t u p (by rw [hpc]; rfl) (by rw [hu]; rfl))
  · have hr := hi.rlt u q (by rw [hu]; rfl)
    have := (hi.full q (hi.deqPub q hr.1) hr.2).1
    rw [← hm, hcl] at this
    exact mod_succ_ne hn hm this

/-- C22: `enqueue` returns false only at a moment when the slot it needs is still taken: it
looks at the current position, and the item `n` positions earlier has not been released
(not dequeued, or its dequeue is unfinished). -/
theorem C22_enqueue_fails_only_if_full {k : Nat} (hk : 1 ≤ k) {s : St α}
    (h : Reachable (2 ^ k) s) {t pos : Nat} {x : α} (hpc : s.pc t = .enqSeq x pos)
    (hf : enqNext x pos (s.seq (idx (2 ^ k) pos)) = .idle) :
    pos = s.enqPos ∧ 2 ^ k ≤ pos ∧ s.rel (pos - 2 ^ k) = false := by
  have hi := inv_reachable hk h
  have hp := hi.pcs t; rw [hpc] at hp
  rw [idx_eq] at hf
  refine hi.enq_fail hp ?_
  unfold enqNext at hf
  dsimp only at hf
  split at hf
  · cases hf
  · split at hf
    · omega
    · cases hf

/-- C22: `dequeue` returns false only at a moment when the slot it needs is not filled: it
looks at the current position, and no item has been published there. -/
theorem C22_dequeue_fails_only_if_empty {k : Nat} (hk : 1 ≤ k) {s : St α}
    (h : Reachable (2 ^ k) s) {t pos : Nat} (hpc : s.pc t = .deqSeq pos)
    (hf : (deqNext pos (s.seq (idx (2 ^ k) pos)) : Pc α) = .idle) :
    pos = s.deqPos ∧ s.pub pos = false := by
  have hi := inv_reachable hk h
  have hp := hi.pcs t; rw [hpc] at hp
  rw [idx_eq] at hf
  refine hi.deq_fail hp ?_
  unfold deqNext at hf
  dsimp only at hf
  split at hf
  · cases hf
  · split at hf
    · omega
    · cases hf

/-- Several steps. -/
inductive Steps (n : Nat) : St α → St α → Prop
  | refl {s} : Steps n s s
  | tail {s s' s''} : Steps n s s' → Step n s' s'' → Steps n s s''

/-- Between calls: every call has returned. -/
def Quiet (s : St α) : Prop := ∀ t, s.pc t = .idle

/-- The items in the queue. -/
def St.items (s : St α) : List α := s.log.drop s.deqPos

theorem Quiet.pub {n : Nat} {s : St α} (hi : Inv n s) (hq : Quiet s) {p : Nat}
    (hp : p < s.enqPos) : s.pub p = true := by
  cases hx : s.pub p with
  | true => rfl
  | false => obtain ⟨t, ht⟩ := hi.wex p hp hx; rw [hq t] at ht; cases ht

theorem Quiet.rel {n : Nat} {s : St α} (hi : Inv n s) (hq : Quiet s) {p : Nat}
    (hp : p < s.deqPos) : s.rel p = true := by
  cases hx : s.rel p with
  | true => rfl
  | false => obtain ⟨t, ht⟩ := hi.rex p hp hx; rw [hq t] at ht; cases ht

/-- C22, sequential use: between calls, `enqueue` finds room iff fewer than `n` items are in
the queue, `dequeue` finds an item iff there is one. -/
theorem C22_quiet_decisions {k : Nat} (hk : 1 ≤ k) {s : St α} (h : Reachable (2 ^ k) s)
    (hq : Quiet s) :
    (∀ x : α, enqNext x s.enqPos (s.seq (idx (2 ^ k) s.enqPos)) =
      if s.items.length < 2 ^ k then .enqCas x s.enqPos else .idle) ∧
    ((deqNext s.deqPos (s.seq (idx (2 ^ k) s.deqPos)) : Pc α) =
      if s.items.length = 0 then .idle else .deqCas s.deqPos) := by
  have hi := inv_reachable hk h
  have hb := C22_bounds hk h
  have hn := two_le hk
  have hlen : s.items.length = s.enqPos - s.deqPos := by
    simp [St.items, hi.len]
  rw [idx_eq, idx_eq]
  generalize 2 ^ k = n at *
  constructor
  · intro x
    by_cases hlt : s.enqPos < s.deqPos + n
    · rw [if_pos (by omega)]
      have : s.seq (s.enqPos % n) = s.enqPos :=
        hi.enq_ready' (fun hge => hq.rel hi (by omega))
      rw [this]; simp [enqNext]
    · rw [if_neg (by omega)]
      have hpb : s.pub (s.enqPos - n) = true := hq.pub hi (by omega)
      have hr : s.rel (s.enqPos - n) = false := by
        cases hx : s.rel (s.enqPos - n) with
        | false => rfl
        | true => have := hi.relLt _ hx; omega
      have hm : (s.enqPos - n) % n = s.enqPos % n := by
        rw [← Nat.mod_eq_sub_mod (by omega)]
      have := (hi.full _ hpb hr).1
      rw [hm] at this
      unfold enqNext
      dsimp only
      rw [if_neg (by omega), if_pos (by omega)]
  · by_cases hlt : s.deqPos < s.enqPos
    · rw [if_neg (by omega)]
      have hpb : s.pub s.deqPos = true := hq.pub hi hlt
      have hr : s.rel s.deqPos = false := by
        cases hx : s.rel s.deqPos with
        | false => rfl
        | true => have := hi.relLt _ hx; omega
      rw [(hi.full _ hpb hr).1]
      simp [deqNext]
    · rw [if_pos (by omega)]
      have he : s.deqPos = s.enqPos := by omega
      have : s.seq (s.enqPos % n) = s.enqPos :=
        hi.enq_ready' (fun hge => hq.rel hi (by omega))
      rw [he, this]
      unfold deqNext
      dsimp only
      rw [if_neg (by omega), if_pos (by omega)]

theorem Steps.trans {n : Nat} {a b c : St α} (h1 : Steps n a b) (h2 : Steps n b c) :
    Steps n a c := by
  induction h2 with
  | refl => exact h1
  | tail _ hst ih => exact .tail ih hst

theorem setf_quiet {s : St α} (hq : Quiet s) {pc : Nat → Pc α} {t : Nat}
    (h : ∀ u, u ≠ t → pc u = s.pc u) (h' : pc t = .idle) : ∀ u, pc u = .idle := by
  intro u
  by_cases hu : u = t
  · subst hu; exact h'
  · rw [h u hu]; exact hq u

/-- C22, sequential use: with room, a call to `enqueue` made between calls can run to
completion and appends its item; on a full queue it returns false and changes nothing. -/
theorem C22_quiet_enqueue {k : Nat} (hk : 1 ≤ k) {s : St α} (h : Reachable (2 ^ k) s)
    (hq : Quiet s) (t : Nat) (x : α) :
    ∃ s', Steps (2 ^ k) s s' ∧ Quiet s' ∧ s'.got = s.got ∧
      s'.items = if s.items.length < 2 ^ k then s.items ++ [x] else s.items := by
  have hd := (C22_quiet_decisions hk h hq).1 x
  have hi := inv_reachable hk h
  have hde := hi.deqLe
  have s1 := Step.callEnq (n := 2 ^ k) (x := x) (hq t)
  have s2 := Step.enqSeq (n := 2 ^ k) (s := s.goto t (.enqSeq x s.enqPos)) (t := t) (x := x)
    (pos := s.enqPos) (by simp [St.goto])
  change Step (2 ^ k) _ ((s.goto t (.enqSeq x s.enqPos)).goto t
    (enqNext x s.enqPos (s.seq (idx (2 ^ k) s.enqPos)))) at s2
  rw [hd] at s2
  by_cases hlt : s.items.length < 2 ^ k
  · rw [if_pos hlt] at s2
    have s3 := Step.enqCasOk (n := 2 ^ k) (t := t) (x := x) (pos := s.enqPos)
      (s := (s.goto t (.enqSeq x s.enqPos)).goto t (.enqCas x s.enqPos)) (by simp [St.goto]) rfl
    have s4 := Step.enqWrite (n := 2 ^ k) (t := t) (x := x) (pos := s.enqPos)
      (s := { ((s.goto t (.enqSeq x s.enqPos)).goto t (.enqCas x s.enqPos)).goto t
        (.enqWrite x s.enqPos) with enqPos := s.enqPos + 1, log := s.log ++ [x] })
      (by simp [St.goto])
    have s5 := Step.enqPub (n := 2 ^ k) (t := t) (x := x) (pos := s.enqPos)
      (s := { ({ ((s.goto t (.enqSeq x s.enqPos)).goto t (.enqCas x s.enqPos)).goto t
        (.enqWrite x s.enqPos) with enqPos := s.enqPos + 1, log := s.log ++ [x] } : St α).goto t
        (.enqPub x s.enqPos) with data := setf s.data (idx (2 ^ k) s.enqPos) (some x) })
      (by simp [St.goto])
    refine ⟨_, ((((Steps.refl.tail s1).tail s2).tail s3).tail s4).tail s5, ?_, rfl, ?_⟩
    · refine setf_quiet hq (t := t) ?_ (by simp [St.goto])
      intro u hu
      simp [St.goto, setf_ne _ _ hu]
    · rw [if_pos hlt]
      show (s.log ++ [x]).drop s.deqPos = s.log.drop s.deqPos ++ [x]
      rw [List.drop_append_of_le_length (by rw [hi.len]; exact hde)]
  · rw [if_neg hlt] at s2
    refine ⟨_, (Steps.refl.tail s1).tail s2, ?_, rfl, by rw [if_neg hlt]; rfl⟩
    refine setf_quiet hq (t := t) ?_ (by simp [St.goto])
    intro u hu
    simp [St.goto, setf_ne _ _ hu]

/-- C22, sequential use: a call to `dequeue` made between calls can run to completion; it
takes the oldest item if there is one, and otherwise changes nothing. -/
theorem C22_quiet_dequeue {k : Nat} (hk : 1 ≤ k) {s : St α} (h : Reachable (2 ^ k) s)
    (hq : Quiet s) (t : Nat) :
    ∃ s', Steps (2 ^ k) s s' ∧ Quiet s' ∧ s'.items = s.items.tail ∧
      s'.got.map Prod.snd = s.got.map Prod.snd ++ (s.items.head?.toList.map some) := by
  have hi := inv_reachable hk h
  have hde := hi.deqLe
  have hlen : s.items.length = s.enqPos - s.deqPos := by
    simp [St.items, hi.len]
  have hd := (C22_quiet_decisions hk h hq).2
  have s1 := Step.callDeq (n := 2 ^ k) (hq t)
  have s2 := Step.deqSeq (n := 2 ^ k) (s := s.goto t (.deqSeq s.deqPos)) (t := t)
    (pos := s.deqPos) (by simp [St.goto])
  change Step (2 ^ k) _ ((s.goto t (.deqSeq s.deqPos)).goto t
    (deqNext s.deqPos (s.seq (idx (2 ^ k) s.deqPos)))) at s2
  rw [hd] at s2
  by_cases hlt : s.items.length = 0
  · rw [if_pos hlt] at s2
    have h0 : s.items = [] := List.length_eq_zero_iff.1 hlt
    refine ⟨_, (Steps.refl.tail s1).tail s2, ?_, by rw [h0]; exact h0, by rw [h0]; simp [St.goto]⟩
    refine setf_quiet hq (t := t) ?_ (by simp [St.goto])
    intro u hu
    simp [St.goto, setf_ne _ _ hu]
  · rw [if_neg hlt] at s2
    have s3 := Step.deqCasOk (n := 2 ^ k) (t := t) (pos := s.deqPos)
      (s := (s.goto t (.deqSeq s.deqPos)).goto t (.deqCas s.deqPos)) (by simp [St.goto]) rfl
    have s4 := Step.deqRead (n := 2 ^ k) (t := t) (pos := s.deqPos)
      (s := { ((s.goto t (.deqSeq s.deqPos)).goto t (.deqCas s.deqPos)).goto t
        (.deqRead s.deqPos) with deqPos := s.deqPos + 1 }) (by simp [St.goto])
    have s5 := Step.deqPub (n := 2 ^ k) (t := t) (pos := s.deqPos)
      (v := s.data (idx (2 ^ k) s.deqPos))
      (s := ({ ((s.goto t (.deqSeq s.deqPos)).goto t (.deqCas s.deqPos)).goto t
        (.deqRead s.deqPos) with deqPos := s.deqPos + 1 } : St α).goto t
        (.deqPub s.deqPos (s.data (idx (2 ^ k) s.deqPos)))) (by simp [St.goto])
    have hpb : s.pub s.deqPos = true := hq.pub hi (by omega)
    have hr : s.rel s.deqPos = false := by
      cases hx : s.rel s.deqPos with
      | false => rfl
      | true => have := hi.relLt _ hx; omega
    have hdata := (hi.full _ hpb hr).2
    have hl : s.deqPos < s.log.length := by rw [hi.len]; omega
    refine ⟨_, ((((Steps.refl.tail s1).tail s2).tail s3).tail s4).tail s5, ?_, ?_, ?_⟩
    · refine setf_quiet hq (t := t) ?_ (by simp [St.goto])
      intro u hu
      simp [St.goto, setf_ne _ _ hu]
    · show s.log.drop (s.deqPos + 1) = (s.log.drop s.deqPos).tail
      rw [List.tail_drop]
    · show (s.got ++ [(s.deqPos, s.data (idx (2 ^ k) s.deqPos))]).map Prod.snd = _
      rw [idx_eq, hdata, List.getElem?_eq_getElem hl]
      simp only [List.map_append, List.map_cons, List.map_nil, St.items]
      rw [List.drop_eq_getElem_cons hl]
      rfl

/-- Two producers and a consumer interleaved: the second claim is published first, and the
consumer still gets the first claimed item. -/
example : ∃ s : St Nat, Reachable (2 ^ 1) s ∧ s.log = [7, 8] ∧ s.pub 1 = true ∧
    s.pub 0 = false ∧ s.got = [] :=
  ⟨_, .step (.step (.step (.step (.step (.step (.step (.step .init
    (.callEnq (t := 0) (x := 7) rfl)) (.enqSeq (t := 0) (x := 7) (pos := 0) rfl))
    (.enqCasOk (t := 0) (x := 7) (pos := 0) rfl rfl))
    (.callEnq (t := 1) (x := 8) rfl)) (.enqSeq (t := 1) (x := 8) (pos := 1) rfl))
    (.enqCasOk (t := 1) (x := 8) (pos := 1) rfl rfl))
    (.enqWrite (t := 1) (x := 8) (pos := 1) rfl)) (.enqPub (t := 1) (x := 8) (pos := 1) rfl),
    rfl, rfl, rfl, rfl⟩

end Phosphor.Mpmc
