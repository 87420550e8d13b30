import Verif.Model.BufferSys
/-
Invariant of the ring buffer transition system.
-/
namespace Phosphor
variable {ε : Type}

/-- Invariant of the ring buffer and its users. -/
structure RingInv (n : Nat) (s : RingSys ε) : Prop where
  size : s.b.size = n
  perm : (s.b.queue ++ (s.holds.map Prod.snd ++ List.range' s.b.counter (n - s.b.counter))).Perm
    (List.range n)
  fifo : s.returned = s.reused ++ s.b.queue
  wait : ∀ w ∈ s.waiting, n ≤ s.b.counter
  loan : s.b.onLoan = s.holds.length

theorem ringInv_step {n : Nat} {s s' : RingSys ε} {op : RingOp} (h : RingInv n s)
    (hs : s.step op = some s') : RingInv n s' := by
  obtain ⟨hsz, hp, hf, hw, hl⟩ := h
  cases op with
  | claim t =>
    simp only [RingSys.step, Buffer.ringClaim] at hs
    by_cases hc : s.b.counter ≥ ({ s.b with counter := s.b.counter + 1 } : Buffer ε).size
    · rw [if_pos hc] at hs
      simp only [Option.some.injEq] at hs
      subst hs
      have hc' : n ≤ s.b.counter := by rw [← hsz]; exact hc
      refine ⟨hsz, ?_, hf, ?_, hl⟩
      · simp only
        rw [Nat.sub_eq_zero_of_le hc'] at hp
        rw [Nat.sub_eq_zero_of_le (by omega)]
        exact hp
      · intro w _; simp only; omega
    · rw [if_neg hc] at hs
      simp only [Option.some.injEq] at hs
      subst hs
      have hc' : s.b.counter < n := by
        rw [← hsz]; simp only [Buffer.size] at hc ⊢; omega
      refine ⟨by simpa [Buffer.ringLoan, Buffer.resetAt, Buffer.size] using hsz, ?_, hf, ?_, ?_⟩
      · simp only [Buffer.ringLoan, Buffer.resetAt, List.map_cons]
        have hr : List.range' s.b.counter (n - s.b.counter)
            = s.b.counter :: List.range' (s.b.counter + 1) (n - (s.b.counter + 1)) := by
          rw [show n - s.b.counter = (n - (s.b.counter + 1)) + 1 by omega, List.range'_succ]
        rw [hr] at hp
        refine List.Perm.trans ?_ hp
        apply List.Perm.append_left
        rw [List.cons_append]
        exact List.perm_middle.symm
      · intro w hw'; have := hw w hw'; omega
      · simp only [Buffer.ringLoan, Buffer.resetAt, List.length_cons, hl]; omega
  | take t =>
    simp only [RingSys.step] at hs
    split at hs
    · next ht =>
      unfold Buffer.ringTake at hs
      cases hq : s.b.queue with
      | nil => rw [hq] at hs; cases hs
      | cons i q =>
        rw [hq] at hs hp
        simp only [Option.some.injEq] at hs
        subst hs
        refine ⟨by simpa [Buffer.ringLoan, Buffer.resetAt, Buffer.size] using hsz, ?_, ?_, ?_, ?_⟩
        · simp only [Buffer.ringLoan, Buffer.resetAt, List.map_cons, List.cons_append] at hp ⊢
          exact (List.perm_middle).trans hp
        · simp only [Buffer.ringLoan, Buffer.resetAt]
          rw [hf, hq]; simp
        · intro w hw'
          exact hw w (List.mem_of_mem_erase hw')
        · simp only [Buffer.ringLoan, Buffer.resetAt, List.length_cons, hl]; omega
    · cases hs
  | ret t i =>
    simp only [RingSys.step] at hs
    split at hs
    · next ht =>
      simp only [Option.some.injEq] at hs
      subst hs
      refine ⟨hsz, ?_, ?_, hw, ?_⟩
      · simp only [Buffer.returnChunkRing]
        refine List.Perm.trans ?_ hp
        rw [List.append_assoc]
        apply List.Perm.append_left
        have h1 : (s.holds.map Prod.snd).Perm (i :: (s.holds.erase (t, i)).map Prod.snd) :=
          ((List.perm_cons_erase ht).map Prod.snd)
        rw [List.singleton_append, ← List.cons_append]
        exact (h1.append_right _).symm
      · simp only [Buffer.returnChunkRing]
        rw [hf]; simp
      · simp only [Buffer.returnChunkRing, hl]
        have := List.length_erase_of_mem ht
        have hpos := List.length_pos_of_mem ht
        omega
    · cases hs

theorem ringInv {generation n : Nat} {s : RingSys ε} (h : s.Reachable generation n) :
    RingInv n s := by
  induction h with
  | init =>
    refine ⟨by simp [RingSys.init, Buffer.makeRing, Buffer.size], ?_, rfl, ?_, rfl⟩
    · simp [RingSys.init, Buffer.makeRing, List.range_eq_range']
    · intro w hw; cases hw
  | step _ hs ih => exact ringInv_step ih hs

end Phosphor
