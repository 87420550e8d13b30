import Verif.Proof.MpmcWrapRun
import Verif.Props.Mpmc
/-
Property C84: the bounded return queue with positions and sequence numbers of `w` bits that wrap
around, for every word width, every capacity 2^k the width has room for, any number of threads
and every interleaving.
-/
namespace Phosphor.MpmcWord
variable {α : Type} {w : Nat}

/-- What C21 and C22 say, of a queue of capacity `2^k` with machine words. -/
structure Queue (k : Nat) (m : St w α) : Prop where
  /-- a finished dequeue carries the item of the enqueue claim with the same number -/
  fifo : ∀ p v, (p, v) ∈ m.got → p < m.log.length ∧ v = m.log[p]?
  /-- no item is taken twice -/
  once : (m.got.map Prod.fst).Nodup
  /-- never more items than the capacity, never fewer than none -/
  bounds : m.taken ≤ m.log.length ∧ m.log.length ≤ m.taken + 2 ^ k
  /-- an enqueuer that is about to store claim `p` finds the older items of its cell read -/
  noOverwrite : ∀ t x pos p q, m.pc t = .enqWrite x pos p → q < p →
    q % 2 ^ k = p % 2 ^ k → m.rel q = true
  /-- no two threads access the item of the same cell at once, unless both read it -/
  noRace : ∀ t u x pos p pos' q, t ≠ u → m.pc t = .enqWrite x pos p →
    ((∃ y, m.pc u = .enqWrite y pos' q) ∨ m.pc u = .deqRead pos' q) →
    idx (2 ^ k) pos ≠ idx (2 ^ k) pos'
  /-- `enqueue` gives up only while the item one round earlier is still in its cell -/
  full : ∀ strict t x pos b, strict = false ∨ m.log.length + 2 * 2 ^ k ≤ 2 ^ (w - 1) →
    m.log.length + 2 * 2 ^ k ≤ b + 2 ^ (w - 1) →
    m.pc t = .enqSeq x pos b → enqNext strict x pos b (m.seq (idx (2 ^ k) pos)) = .idle →
    2 ^ k ≤ m.log.length ∧ m.rel (m.log.length - 2 ^ k) = false
  /-- `dequeue` gives up only while the item it would take has not been published -/
  empty : ∀ strict t pos b, strict = false ∨ m.log.length + 2 * 2 ^ k ≤ 2 ^ (w - 1) →
    m.taken + 2 * 2 ^ k ≤ b + 2 ^ (w - 1) →
    m.pc t = .deqSeq pos b →
    (deqNext strict pos b (m.seq (idx (2 ^ k) pos)) : Pc w α) = .idle → m.pub m.taken = false
  /-- no call has run into undefined behaviour -/
  defined : ∀ t, m.pc t ≠ .undef

theorem pcW_undef (p : Mpmc.Pc α) : pcW w p ≠ .undef := by cases p <;> intro h <;> cases h

theorem queue_stW {k : Nat} (hk : 1 ≤ k) (hkw : k < w) {s : Mpmc.St α}
    (hr : Mpmc.Reachable (2 ^ k) s) : Queue k (stW w s) := by
  have hi := Mpmc.inv_reachable hk hr
  have hsl := seq_lt hk hr
  have hw : 1 ≤ w := by omega
  have hn0 := Nat.two_pow_pos k
  have hlen := hi.len
  have hb := Mpmc.C22_bounds hk hr
  have hidx : ∀ p, Mpmc.idx (2 ^ k) p = p % 2 ^ k := Mpmc.idx_eq k
  have hidxW : ∀ p, idx (2 ^ k) (BitVec.ofNat w p) = p % 2 ^ k := idx_ofNat (by omega)
  have hW : ∀ {t x pos p}, (stW w s).pc t = .enqWrite x pos p →
      s.pc t = .enqWrite x p ∧ pos = BitVec.ofNat w p := by
    intro t x pos p hpc
    change pcW w (s.pc t) = _ at hpc
    generalize s.pc t = q at hpc ⊢
    cases q <;> cases hpc
    exact ⟨rfl, rfl⟩
  have hRd : ∀ {t pos p}, (stW w s).pc t = .deqRead pos p →
      s.pc t = .deqRead p ∧ pos = BitVec.ofNat w p := by
    intro t pos p hpc
    change pcW w (s.pc t) = _ at hpc
    generalize s.pc t = q at hpc ⊢
    cases q <;> cases hpc
    exact ⟨rfl, rfl⟩
  refine ⟨fun p v h => Mpmc.C21_fifo hk hr p v h, Mpmc.C21_once hk hr, ?_, ?_, ?_, ?_, ?_,
    fun t => pcW_undef _⟩
  · show s.deqPos ≤ s.log.length ∧ s.log.length ≤ s.deqPos + 2 ^ k
    rw [hlen]; exact hb
  · intro t x pos p q hpc hlt hm
    exact Mpmc.C22_no_overwrite hk hr (hW hpc).1 hlt hm
  · intro t u x pos p pos' q htu hpc hu
    obtain ⟨hp, rfl⟩ := hW hpc
    rcases hu with ⟨y, hu⟩ | hu
    · obtain ⟨hu', rfl⟩ := hW hu
      have := Mpmc.C22_no_race hk hr htu hp (Or.inl ⟨y, hu'⟩)
      rwa [hidx, hidx, ← hidxW, ← hidxW] at this
    · obtain ⟨hu', rfl⟩ := hRd hu
      have := Mpmc.C22_no_race hk hr htu hp (Or.inr hu')
      rwa [hidx, hidx, ← hidxW, ← hidxW] at this
  · intro strict t x pos b hs hft hpc hf
    have hp : s.pc t = .enqSeq x b ∧ pos = BitVec.ofNat w b := by
      change pcW w (s.pc t) = _ at hpc
      generalize s.pc t = q at hpc ⊢
      cases q <;> cases hpc
      exact ⟨rfl, rfl⟩
    obtain ⟨hp, rfl⟩ := hp
    change s.log.length + _ ≤ _ at hft
    change _ ∨ s.log.length + _ ≤ _ at hs
    show _ ≤ s.log.length ∧ s.rel (s.log.length - _) = false
    rw [hlen] at hft hs ⊢
    have hle := hi.pcs t; rw [hp] at hle
    change b ≤ s.enqPos at hle
    have hge := seq_ge hi hle
    have hlt := hsl (b % 2 ^ k) (Nat.mod_lt _ hn0)
    rw [hidxW] at hf
    change enqNext strict x _ b (BitVec.ofNat w (s.seq (b % 2 ^ k))) = _ at hf
    rw [enqNext_ok hw x (by omega) (by omega) (by
      intro hst; rcases hs with h | h
      · rw [h] at hst; cases hst
      · omega)] at hf
    have hf' : Mpmc.enqNext x b (s.seq (Mpmc.idx (2 ^ k) b)) = .idle := by
      rw [hidx]
      generalize Mpmc.enqNext x b (s.seq (b % 2 ^ k)) = q at hf
      cases q <;> first | rfl | cases hf
    have := Mpmc.C22_enqueue_fails_only_if_full hk hr hp hf'
    rw [← this.1]; exact this.2
  · intro strict t pos b hs hft hpc hf
    have hp : s.pc t = .deqSeq b ∧ pos = BitVec.ofNat w b := by
      change pcW w (s.pc t) = _ at hpc
      generalize s.pc t = q at hpc ⊢
      cases q <;> cases hpc
      exact ⟨rfl, rfl⟩
    obtain ⟨hp, rfl⟩ := hp
    change s.deqPos + _ ≤ _ at hft
    change _ ∨ s.log.length + _ ≤ _ at hs
    show s.pub s.deqPos = false
    rw [hlen] at hs
    have hle := hi.pcs t; rw [hp] at hle
    change b ≤ s.deqPos at hle
    have hge := seq_ge hi (pos := b) (by omega)
    have hlt := hsl (b % 2 ^ k) (Nat.mod_lt _ hn0)
    have hn2 := Mpmc.two_le hk
    rw [hidxW] at hf
    change deqNext strict _ b (BitVec.ofNat w (s.seq (b % 2 ^ k))) = _ at hf
    rw [deqNext_ok hw (by omega) (by omega) (by
      intro hst; rcases hs with h | h
      · rw [h] at hst; cases hst
      · omega)] at hf
    have hf' : (Mpmc.deqNext b (s.seq (Mpmc.idx (2 ^ k) b)) : Mpmc.Pc α) = .idle := by
      rw [hidx]
      generalize (Mpmc.deqNext b (s.seq (b % 2 ^ k)) : Mpmc.Pc α) = q at hf
      cases q <;> first | rfl | cases hf
    have := Mpmc.C22_dequeue_fails_only_if_empty hk hr hp hf'
    rw [← this.1]; exact this.2

/-- C84: positions may wrap around any number of times. With subtraction that wraps around, the
queue keeps C21 and C22 in every interleaving in which no thread is overtaken by about half of
the range of a word between loading a position and using it. -/
theorem C84_wrap_partial {k : Nat} (hk : 1 ≤ k) (hkw : k < w) {m : St w α}
    (h : ReachableFresh false (2 ^ k) m) : Queue k m := by
  obtain ⟨s, hs, rfl⟩ := refine_wrap hk hkw h
  exact queue_stW hk hkw hs

theorem Step.log_mono {strict : Bool} {n : Nat} {s s' : St w α} (h : Step strict n s s') :
    s.log.length ≤ s'.log.length := by
  cases h with
  | enqCasOk _ _ => show _ ≤ (s.log ++ [_]).length; simp
  | _ => exact Nat.le_refl _

theorem refine_small {strict : Bool} {k : Nat} (hk : 1 ≤ k) (hkw : k < w) {m : St w α}
    (h : Reachable strict (2 ^ k) m) (hl : m.log.length + 2 * 2 ^ k ≤ 2 ^ (w - 1)) :
    ∃ s, Mpmc.Reachable (2 ^ k) s ∧ m = stW w s := by
  induction h with
  | init => exact ⟨_, .init, stW_init.symm⟩
  | @step a b _ hst ih =>
    have := hst.log_mono
    obtain ⟨s, hs, rfl⟩ := ih (by omega)
    have hi := Mpmc.inv_reachable hk hs
    have hde := hi.deqLe
    have hlen := hi.len
    have hl' : s.log.length + 2 * 2 ^ k ≤ 2 ^ (w - 1) := by
      have : (stW w s).log.length = s.log.length := rfl
      omega
    have hf : Fresh (2 ^ k) (stW w s) := by
      intro t
      have e1 : (stW w s).log.length = s.log.length := rfl
      have e2 : (stW w s).taken = s.deqPos := rfl
      generalize (stW w s).pc t = q
      cases q <;> simp only [e1, e2] <;> omega
    obtain ⟨s', hst', rfl⟩ := sim_back hk hkw hs hf (by intro _; rw [← hlen]; exact hl') hst
    exact ⟨s', hs.step hst', rfl⟩

/-- C84: in C++ every call is defined and the queue keeps C21 and C22, in every interleaving
and with every delay, as long as fewer than about half of the range of a word of items have
been put in: 2^63 - 2n of them where size_t has 64 bits. -/
theorem C84_defined_partial (strict : Bool) {k : Nat} (hk : 1 ≤ k) (hkw : k < w) {m : St w α}
    (h : Reachable strict (2 ^ k) m) (hl : m.log.length + 2 * 2 ^ k ≤ 2 ^ (w - 1)) :
    Queue k m := by
  obtain ⟨s, hs, rfl⟩ := refine_small hk hkw h hl
  exact queue_stW hk hkw hs

/-- Any number of items can go through the queue without a delay: the hypothesis of
`C84_wrap_partial` does not limit how often the positions wrap around. -/
theorem C84_unlimited {k : Nat} (hkw : k < w - 1) (y : α) (j : Nat) :
    ∃ m : St w α, ReachableFresh false (2 ^ k) m ∧ m.log = List.replicate j y ∧ m.taken = j ∧
      m.enqPos = BitVec.ofNat w j ∧ ∀ t, m.pc t = .idle := by
  have hR : Kept (ReachableFresh false (2 ^ k)) false (2 ^ k) (St.init w : St w α) := by
    intro s s' hs hpc hf hst
    refine hs.step ?_ hst
    intro t
    by_cases ht : t = 1
    · subst ht; exact hf
    · rw [hpc t ht]; trivial
  obtain ⟨m, h1, h2, h3⟩ := Done.pairs hkw hR .init
    (Done.init (2 ^ k) y (St.init w) rfl rfl rfl rfl rfl rfl) j
  rw [Nat.zero_add] at h2
  refine ⟨m, h1, h2.log, h2.taken, h2.enqPos, ?_⟩
  intro t
  by_cases ht : t = 1
  · subst ht; exact h2.pc
  · rw [h3 t ht]; rfl

theorem kept_reachable (strict : Bool) (n : Nat) (m : St w α) :
    Kept (Reachable strict n) strict n m :=
  fun _ _ hs _ _ hst => hs.step hst

/-- The code violates C21 and C22 when a thread is overtaken by the whole range of a word: a
thread that has found its cell free and is then suspended while the others put in 2^w items
claims the same position again, although the queue is full, and overwrites an item that has
not been taken. The next dequeue takes the new item in place of the old one. -/
theorem C84_overtaken_refuted (strict : Bool) {k : Nat} (hkw : k < w - 1) (x y : α) :
    ∃ m : St w α, Reachable strict (2 ^ k) m ∧ (2 ^ w - 2 ^ k, some x) ∈ m.got ∧
      m.log[2 ^ w - 2 ^ k]? = some y := by
  have hn0 := Nat.two_pow_pos k
  have hnw : 2 ^ k ≤ 2 ^ w := Nat.pow_le_pow_right (by omega) (by omega)
  -- thread 0 finds the first cell free
  let a1 : St w α := (St.init w).goto 0 (.enqSeq x 0 0)
  let a2 : St w α := a1.goto 0 (.enqCas x 0 0)
  have h1 : Reachable strict (2 ^ k) a1 := Reachable.init.step (.callEnq (t := 0) (x := x) rfl)
  have hidx0 : idx (2 ^ k) (0 : BitVec w) = 0 := by
    have := idx_ofNat (w := w) (k := k) (by omega) 0
    rwa [Nat.zero_mod] at this
  have h2 : Reachable strict (2 ^ k) a2 := by
    refine h1.step ?_
    have st := Step.enqSeq (strict := strict) (n := 2 ^ k) (s := a1) (t := 0) (x := x) (pos := 0)
      (b := 0) rfl
    have e : enqNext strict x (0 : BitVec w) 0 (a1.seq (idx (2 ^ k) (0 : BitVec w))) =
        .enqCas x 0 0 := by
      rw [hidx0]
      change enqNext strict x (0 : BitVec w) 0 (0 : BitVec w) = _
      unfold enqNext
      rw [dif_self]
      rfl
    rw [e] at st
    exact st
  have d0 : Done (2 ^ k) y 0 0 a2 := Done.init _ _ _ rfl rfl rfl rfl rfl rfl
  -- thread 1 puts in and takes out items until the positions are one round from wrapping
  obtain ⟨b, hb1, hb2, hb3⟩ := d0.pairs hkw (kept_reachable strict _ _) h2 (2 ^ w - 2 ^ k)
  rw [Nat.zero_add] at hb2
  -- and fills the queue
  obtain ⟨c, hc1, hc2, hc3, hc4⟩ := hb2.enqs hkw (kept_reachable strict _ _) hb1 (2 ^ k)
    (Nat.le_refl _)
  rw [Nat.sub_add_cancel hnw] at hc2
  have hcpc : c.pc 0 = .enqCas x 0 0 := by
    rw [hc3 0 (by omega), hb3 0 (by omega)]; rfl
  have hce : c.enqPos = 0 := by
    rw [hc2.enqPos]
    apply BitVec.eq_of_toNat_eq
    simp
  -- thread 0 claims the position and stores its item
  have h3 := hc1.step (Step.enqCasOk (t := 0) (x := x) (pos := 0) hcpc hce)
  have h4 := h3.step (Step.enqWrite (t := 0) (x := x) (pos := 0) (k := c.log.length)
    (by simp [St.goto]))
  -- thread 1 takes out the oldest item
  have hD : (2 ^ w - 2 ^ k) % 2 ^ k = 0 := by
    have : 2 ^ w = 2 ^ k * 2 ^ (w - k) := by rw [← Nat.pow_add]; congr 1; omega
    rw [this]
    have : 2 ^ k * 2 ^ (w - k) - 2 ^ k = 2 ^ k * (2 ^ (w - k) - 1) := by
      rw [Nat.mul_sub, Nat.mul_one]
    rw [this, Nat.mul_mod_right]
  have hseq := hc2.seq (2 ^ w - 2 ^ k) (Nat.le_refl _) (by omega)
  rw [if_pos (by omega)] at hseq
  obtain ⟨m, hm1, _, _, _, _, _, _, hlog, _, _, _, hgot⟩ := deq1 (R := Reachable strict (2 ^ k))
    hkw (kept_reachable strict _ _) h4 (D := 2 ^ w - 2 ^ k)
    (by simp [St.goto, setf, hc2.pc]) hc2.taken hc2.deqPos hseq
  refine ⟨m, hm1, ?_, ?_⟩
  · rw [hgot]
    refine List.mem_append_right _ ?_
    simp only [List.mem_singleton, Prod.mk.injEq, true_and]
    rw [hD]
    show some x = setf c.data (idx (2 ^ k) (0 : BitVec w)) (some x) 0
    rw [hidx0, setf_self]
  · rw [hlog]
    show (c.log ++ [x])[_]? = _
    rw [hc2.log, List.getElem?_append_left (by simp; omega), List.getElem?_replicate,
      if_pos (by omega)]

/-- The code violates C22 already when a thread is overtaken by half of the range of a word: its
`enqueue` then returns false on an empty queue that no other thread is using. -/
theorem C84_half_refuted (strict : Bool) {k : Nat} (hkw : k < w - 1) (x y : α) :
    ∃ m : St w α, Reachable strict (2 ^ k) m ∧ m.log.length = m.taken ∧
      (∀ p, p < m.taken → m.rel p = true) ∧ (∀ t, t ≠ 0 → m.pc t = .idle) ∧
      ∃ pos b, m.pc 0 = .enqSeq x pos b ∧
        enqNext strict x pos b (m.seq (idx (2 ^ k) pos)) = .idle := by
  have hn0 := Nat.two_pow_pos k
  let a1 : St w α := (St.init w).goto 0 (.enqSeq x 0 0)
  have h1 : Reachable strict (2 ^ k) a1 := Reachable.init.step (.callEnq (t := 0) (x := x) rfl)
  have d0 : Done (2 ^ k) y 0 0 a1 := Done.init _ _ _ rfl rfl rfl rfl rfl rfl
  obtain ⟨m, hm1, hm2, hm3⟩ := d0.pairs hkw (kept_reachable strict _ _) h1 (2 ^ (w - 1))
  rw [Nat.zero_add] at hm2
  refine ⟨m, hm1, by rw [hm2.log, hm2.taken, List.length_replicate], ?_, ?_, 0, 0, ?_, ?_⟩
  · intro p hp; rw [hm2.taken] at hp; exact hm2.rel p hp
  · intro t ht
    by_cases h : t = 1
    · subst h; exact hm2.pc
    · rw [hm3 t h]; simp [a1, St.goto, setf_ne _ _ ht]; rfl
  · rw [hm3 0 (by omega)]; rfl
  · have hidx0 : idx (2 ^ k) (0 : BitVec w) = 0 := by
      have := idx_ofNat (w := w) (k := k) (by omega) 0
      rwa [Nat.zero_mod] at this
    have hmod : 2 ^ (w - 1) % 2 ^ k = 0 :=
      Nat.mod_eq_zero_of_dvd (Nat.pow_dvd_pow 2 (by omega))
    have hs := hm2.seq (2 ^ (w - 1)) (Nat.le_refl _) (by omega)
    rw [if_neg (by omega), hmod] at hs
    rw [hidx0, hs]
    have hpow : (2 : Nat) ^ w = 2 * 2 ^ (w - 1) := by
      rw [← Nat.pow_succ']; congr 1; omega
    have hp0 := Nat.two_pow_pos (w - 1)
    have ht : (BitVec.ofNat w (2 ^ (w - 1))).toInt = -((2 ^ (w - 1) : Nat) : Int) := by
      rw [BitVec.toInt_eq_toNat_cond, BitVec.toNat_ofNat, Nat.mod_eq_of_lt (by omega),
        if_neg (by omega), hpow]
      omega
    have e : ((2 : Int) ^ (w - 1)) = ((2 ^ (w - 1) : Nat) : Int) := by push_cast; rfl
    have hd : dif strict (BitVec.ofNat w (2 ^ (w - 1))) (0 : BitVec w) =
        some (-((2 ^ (w - 1) : Nat) : Int)) := by
      unfold dif
      rw [ht, show (0 : BitVec w).toInt = 0 from BitVec.toInt_zero]
      dsimp only
      rw [if_neg (by rw [e]; omega)]
      congr 1
      rw [Int.sub_zero]
      apply Int.bmod_eq_of_le
      · rw [hpow]; omega
      · rw [hpow]; omega
    unfold enqNext
    rw [hd]
    dsimp only
    rw [if_neg (by omega), if_pos (by omega)]

/-- The code runs into undefined behaviour once the positions reach half of the range of a word,
even with a single thread: after 2^(w-1) - 1 items have been put in and taken out one at a
time, a dequeue from the empty queue subtracts the least signed number from the greatest. -/
theorem C84_overflow_refuted {k : Nat} (hkw : k < w - 1) (y : α) :
    ∃ m : St w α, Reachable true (2 ^ k) m ∧ m.log = List.replicate (2 ^ (w - 1) - 1) y ∧
      (∀ t, t ≠ 1 → m.pc t = .idle) ∧ m.pc 1 = .undef := by
  have hn0 := Nat.two_pow_pos k
  have hp0 := Nat.two_pow_pos (w - 1)
  obtain ⟨m, hm1, hm2, hm3⟩ := Done.pairs hkw (kept_reachable true (2 ^ k) _) .init
    (Done.init (2 ^ k) y (St.init w) rfl rfl rfl rfl rfl rfl) (2 ^ (w - 1) - 1)
  rw [Nat.zero_add] at hm2
  have h2 := hm1.step (Step.callDeq (t := 1) hm2.pc)
  have h3 := h2.step (Step.deqSeq (t := 1) (pos := m.deqPos) (b := m.taken) (by simp [St.goto]))
  refine ⟨_, h3, hm2.log, ?_, ?_⟩
  · intro t ht
    simp only [St.goto, setf_ne _ _ ht]
    rw [hm3 t ht]; rfl
  · simp only [St.goto, setf_self]
    have hs := hm2.seq (2 ^ (w - 1) - 1) (Nat.le_refl _) (by omega)
    rw [if_neg (by omega)] at hs
    have hidx : idx (2 ^ k) m.deqPos = (2 ^ (w - 1) - 1) % 2 ^ k := by
      rw [hm2.deqPos]; exact idx_ofNat (by omega) _
    rw [hidx, hs]
    have ea : m.deqPos + 1 = BitVec.ofNat w (2 ^ (w - 1)) := by
      have : 2 ^ (w - 1) = 2 ^ (w - 1) - 1 + 1 := by omega
      rw [hm2.deqPos]
      conv => rhs; rw [this, BitVec.ofNat_add]
      rfl
    have hpow : (2 : Nat) ^ w = 2 * 2 ^ (w - 1) := by
      rw [← Nat.pow_succ']; congr 1; omega
    have ht : (BitVec.ofNat w (2 ^ (w - 1))).toInt = -((2 ^ (w - 1) : Nat) : Int) := by
      rw [BitVec.toInt_eq_toNat_cond, BitVec.toNat_ofNat, Nat.mod_eq_of_lt (by omega),
        if_neg (by omega), hpow]
      omega
    have ht1 : (BitVec.ofNat w (2 ^ (w - 1) - 1)).toInt = ((2 ^ (w - 1) - 1 : Nat) : Int) := by
      rw [BitVec.toInt_eq_toNat_cond, BitVec.toNat_ofNat, Nat.mod_eq_of_lt (by omega),
        if_pos (by omega)]
    have e : ((2 : Int) ^ (w - 1)) = ((2 ^ (w - 1) : Nat) : Int) := by push_cast; rfl
    have hk2 : 1 ≤ 2 ^ (w - 1) - 1 := by
      have : 2 ^ 1 ≤ 2 ^ (w - 1) := Nat.pow_le_pow_right (by omega) (by omega)
      omega
    unfold deqNext
    have hd : dif true (BitVec.ofNat w (2 ^ (w - 1) - 1)) (m.deqPos + 1) = none := by
      unfold dif
      rw [ea, ht, ht1]
      dsimp only
      rw [if_pos]
      refine ⟨rfl, Or.inr ?_⟩
      rw [e]
      omega
    rw [hd]

/-- 64-bit words: three times the whole range of items through a queue of capacity 4. -/
example : ∃ m : St 64 Nat, ReachableFresh false (2 ^ 2) m ∧ m.log = List.replicate (3 * 2 ^ 64) 7 ∧
    m.taken = 3 * 2 ^ 64 ∧ m.enqPos = BitVec.ofNat 64 (3 * 2 ^ 64) ∧ ∀ t, m.pc t = .idle :=
  C84_unlimited (by omega) 7 _

/-- 64-bit words: an item is lost after an enqueuer has been overtaken by 2^64 others. -/
example : ∃ m : St 64 Nat, Reachable true (2 ^ 2) m ∧ (2 ^ 64 - 2 ^ 2, some 1) ∈ m.got ∧
    m.log[2 ^ 64 - 2 ^ 2]? = some 2 :=
  C84_overtaken_refuted true (by omega) 1 2

end Phosphor.MpmcWord
