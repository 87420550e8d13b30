import Verif.Proof.MpmcWrap
/-
Runs of the queue with machine words in which one thread puts in and takes out any number of
items.
-/
namespace Phosphor.MpmcWord
variable {α : Type} {w : Nat}

/-- Thread 1 is not delayed. -/
def Fresh1 (n : Nat) (s : St w α) : Prop :=
  match s.pc 1 with
  | .enqSeq _ _ b | .enqCas _ _ b => s.log.length + 2 * n ≤ b + 2 ^ (w - 1)
  | .deqSeq _ b | .deqCas _ b => s.taken + 2 * n ≤ b + 2 ^ (w - 1)
  | _ => True

/-- `R` is kept by steps from states in which thread 1 is not delayed and the other threads are
where they are in `m`. -/
def Kept (R : St w α → Prop) (strict : Bool) (n : Nat) (m : St w α) : Prop :=
  ∀ s s', R s → (∀ u, u ≠ 1 → s.pc u = m.pc u) → Fresh1 n s → Step strict n s s' → R s'

theorem dif_self (strict : Bool) (a : BitVec w) : dif strict a a = some 0 := by
  unfold dif
  dsimp only
  rw [Int.sub_self, if_neg, Int.zero_bmod]
  have e : ((2 : Int) ^ (w - 1)) = ((2 ^ (w - 1) : Nat) : Int) := by push_cast; rfl
  have := Nat.two_pow_pos (w - 1)
  rw [e]
  omega

theorem enq1 {R : St w α → Prop} {strict : Bool} {k : Nat} (hkw : k < w - 1) {m : St w α}
    (hR : Kept R strict (2 ^ k) m) (hm : R m) {N : Nat} (hpc : m.pc 1 = .idle)
    (hlen : m.log.length = N) (hpos : m.enqPos = BitVec.ofNat w N)
    (hseq : m.seq (N % 2 ^ k) = BitVec.ofNat w N) (x : α) :
    ∃ m', R m' ∧ m'.pc 1 = .idle ∧ (∀ u, u ≠ 1 → m'.pc u = m.pc u) ∧
      m'.seq = setf m.seq (N % 2 ^ k) (BitVec.ofNat w (N + 1)) ∧
      m'.data = setf m.data (N % 2 ^ k) (some x) ∧ m'.enqPos = BitVec.ofNat w (N + 1) ∧
      m'.deqPos = m.deqPos ∧ m'.log = m.log ++ [x] ∧ m'.taken = m.taken ∧
      m'.pub = setf m.pub N true ∧ m'.rel = m.rel ∧ m'.got = m.got := by
  have hp2 : 2 * 2 ^ k ≤ 2 ^ (w - 1) := by
    rw [← Nat.pow_succ']; exact Nat.pow_le_pow_right (by omega) (by omega)
  have hidx : idx (2 ^ k) m.enqPos = N % 2 ^ k := by rw [hpos]; exact idx_ofNat (by omega) N
  have hother : ∀ (p : Pc w α) u, u ≠ 1 → setf m.pc 1 p u = m.pc u :=
    fun p u hu => setf_ne _ _ hu
  have s1 := Step.callEnq (strict := strict) (n := 2 ^ k) (x := x) hpc
  have r1 := hR _ _ hm (fun u _ => rfl) (by simp only [Fresh1, hpc]) s1
  have s2 := Step.enqSeq (strict := strict) (n := 2 ^ k)
    (s := m.goto 1 (.enqSeq x m.enqPos m.log.length)) (t := 1) (x := x) (pos := m.enqPos)
    (b := m.log.length) (by simp [St.goto])
  have e2 : enqNext strict x m.enqPos m.log.length (m.seq (idx (2 ^ k) m.enqPos)) =
      .enqCas x m.enqPos m.log.length := by
    unfold enqNext
    rw [hidx, hseq, hpos, dif_self]
    rfl
  change Step strict (2 ^ k) _ ((m.goto 1 (.enqSeq x m.enqPos m.log.length)).goto 1
    (enqNext strict x m.enqPos m.log.length (m.seq (idx (2 ^ k) m.enqPos)))) at s2
  rw [e2] at s2
  have r2 := hR _ _ r1 (fun u hu => hother _ u hu)
    (by simp only [Fresh1, St.goto, setf_self]; omega) s2
  have s3 := Step.enqCasOk (strict := strict) (n := 2 ^ k) (t := 1) (x := x) (pos := m.enqPos)
    (b := m.log.length)
    (s := (m.goto 1 (.enqSeq x m.enqPos m.log.length)).goto 1 (.enqCas x m.enqPos m.log.length))
    (by simp [St.goto]) rfl
  have r3 := hR _ _ r2 (fun u hu => by simp [St.goto, setf_ne _ _ hu])
    (by simp only [Fresh1, St.goto, setf_self]; omega) s3
  have s4 := Step.enqWrite (strict := strict) (n := 2 ^ k) (t := 1) (x := x) (pos := m.enqPos)
    (k := m.log.length)
    (s := { ((m.goto 1 (.enqSeq x m.enqPos m.log.length)).goto 1
      (.enqCas x m.enqPos m.log.length)).goto 1 (.enqWrite x m.enqPos m.log.length) with
        enqPos := m.enqPos + 1, log := m.log ++ [x] })
    (by simp [St.goto])
  have r4 := hR _ _ r3 (fun u hu => by simp [St.goto, setf_ne _ _ hu])
    (by simp only [Fresh1, St.goto, setf_self]) s4
  have s5 := Step.enqPub (strict := strict) (n := 2 ^ k) (t := 1) (x := x) (pos := m.enqPos)
    (k := m.log.length)
    (s := { ({ ((m.goto 1 (.enqSeq x m.enqPos m.log.length)).goto 1
      (.enqCas x m.enqPos m.log.length)).goto 1 (.enqWrite x m.enqPos m.log.length) with
        enqPos := m.enqPos + 1, log := m.log ++ [x] } : St w α).goto 1
        (.enqPub x m.enqPos m.log.length) with
        data := setf m.data (idx (2 ^ k) m.enqPos) (some x) })
    (by simp [St.goto])
  have r5 := hR _ _ r4 (fun u hu => by simp [St.goto, setf_ne _ _ hu])
    (by simp only [Fresh1, St.goto, setf_self]) s5
  have ea : m.enqPos + 1 = BitVec.ofNat w (N + 1) := by rw [hpos, BitVec.ofNat_add]; rfl
  refine ⟨_, r5, by simp [St.goto], fun u hu => by simp [St.goto, setf_ne _ _ hu], ?_, ?_, ?_,
    rfl, rfl, rfl, ?_, rfl, rfl⟩
  · show setf m.seq (idx (2 ^ k) m.enqPos) (m.enqPos + 1) = _
    rw [hidx, ea]
  · show setf m.data (idx (2 ^ k) m.enqPos) _ = _
    rw [hidx]
  · exact ea
  · show setf m.pub m.log.length true = _
    rw [hlen]

theorem deq1 {R : St w α → Prop} {strict : Bool} {k : Nat} (hkw : k < w - 1) {m : St w α}
    (hR : Kept R strict (2 ^ k) m) (hm : R m) {D : Nat} (hpc : m.pc 1 = .idle)
    (htak : m.taken = D) (hpos : m.deqPos = BitVec.ofNat w D)
    (hseq : m.seq (D % 2 ^ k) = BitVec.ofNat w (D + 1)) :
    ∃ m', R m' ∧ m'.pc 1 = .idle ∧ (∀ u, u ≠ 1 → m'.pc u = m.pc u) ∧
      m'.seq = setf m.seq (D % 2 ^ k) (BitVec.ofNat w (D + 2 ^ k)) ∧
      m'.data = m.data ∧ m'.enqPos = m.enqPos ∧
      m'.deqPos = BitVec.ofNat w (D + 1) ∧ m'.log = m.log ∧ m'.taken = D + 1 ∧
      m'.pub = m.pub ∧ m'.rel = setf m.rel D true ∧
      m'.got = m.got ++ [(D, m.data (D % 2 ^ k))] := by
  have hp2 : 2 * 2 ^ k ≤ 2 ^ (w - 1) := by
    rw [← Nat.pow_succ']; exact Nat.pow_le_pow_right (by omega) (by omega)
  have hidx : idx (2 ^ k) m.deqPos = D % 2 ^ k := by rw [hpos]; exact idx_ofNat (by omega) D
  have ea : m.deqPos + 1 = BitVec.ofNat w (D + 1) := by rw [hpos, BitVec.ofNat_add]; rfl
  have hother : ∀ (p : Pc w α) u, u ≠ 1 → setf m.pc 1 p u = m.pc u :=
    fun p u hu => setf_ne _ _ hu
  have s1 := Step.callDeq (strict := strict) (n := 2 ^ k) hpc
  have r1 := hR _ _ hm (fun u _ => rfl) (by simp only [Fresh1, hpc]) s1
  have s2 := Step.deqSeq (strict := strict) (n := 2 ^ k)
    (s := m.goto 1 (.deqSeq m.deqPos m.taken)) (t := 1) (pos := m.deqPos)
    (b := m.taken) (by simp [St.goto])
  have e2 : (deqNext strict m.deqPos m.taken (m.seq (idx (2 ^ k) m.deqPos)) : Pc w α) =
      .deqCas m.deqPos m.taken := by
    unfold deqNext
    rw [hidx, hseq, ea, dif_self]
    rfl
  change Step strict (2 ^ k) _ ((m.goto 1 (.deqSeq m.deqPos m.taken)).goto 1
    (deqNext strict m.deqPos m.taken (m.seq (idx (2 ^ k) m.deqPos)))) at s2
  rw [e2] at s2
  have r2 := hR _ _ r1 (fun u hu => hother _ u hu)
    (by simp only [Fresh1, St.goto, setf_self]; omega) s2
  have s3 := Step.deqCasOk (strict := strict) (n := 2 ^ k) (t := 1) (pos := m.deqPos)
    (b := m.taken)
    (s := (m.goto 1 (.deqSeq m.deqPos m.taken)).goto 1 (.deqCas m.deqPos m.taken))
    (by simp [St.goto]) rfl
  have r3 := hR _ _ r2 (fun u hu => by simp [St.goto, setf_ne _ _ hu])
    (by simp only [Fresh1, St.goto, setf_self]; omega) s3
  have s4 := Step.deqRead (strict := strict) (n := 2 ^ k) (t := 1) (pos := m.deqPos)
    (k := m.taken)
    (s := { ((m.goto 1 (.deqSeq m.deqPos m.taken)).goto 1
      (.deqCas m.deqPos m.taken)).goto 1 (.deqRead m.deqPos m.taken) with
        deqPos := m.deqPos + 1, taken := m.taken + 1 })
    (by simp [St.goto])
  have r4 := hR _ _ r3 (fun u hu => by simp [St.goto, setf_ne _ _ hu])
    (by simp only [Fresh1, St.goto, setf_self]) s4
  have s5 := Step.deqPub (strict := strict) (n := 2 ^ k) (t := 1) (pos := m.deqPos)
    (k := m.taken) (v := m.data (idx (2 ^ k) m.deqPos))
    (s := ({ ((m.goto 1 (.deqSeq m.deqPos m.taken)).goto 1
      (.deqCas m.deqPos m.taken)).goto 1 (.deqRead m.deqPos m.taken) with
        deqPos := m.deqPos + 1, taken := m.taken + 1 } : St w α).goto 1
        (.deqPub m.deqPos m.taken (m.data (idx (2 ^ k) m.deqPos))))
    (by simp [St.goto])
  have r5 := hR _ _ r4 (fun u hu => by simp [St.goto, setf_ne _ _ hu])
    (by simp only [Fresh1, St.goto, setf_self]) s5
  refine ⟨_, r5, by simp [St.goto], fun u hu => by simp [St.goto, setf_ne _ _ hu], ?_, rfl, rfl,
    ea, rfl, ?_, rfl, ?_, ?_⟩
  · show setf m.seq (idx (2 ^ k) m.deqPos) (m.deqPos + mask w (2 ^ k) + 1) = _
    rw [hidx, hpos, mask_eq w k (by omega)]
    congr 1
    have : D + 2 ^ k = D + (2 ^ k - 1) + 1 := by have := Nat.two_pow_pos k; omega
    rw [this, BitVec.ofNat_add, BitVec.ofNat_add]
    rfl
  · show m.taken + 1 = _
    rw [htak]
  · show setf m.rel m.taken true = _
    rw [htak]
  · show m.got ++ [(m.taken, m.data (idx (2 ^ k) m.deqPos))] = _
    rw [htak, hidx]

/-- Thread 1 has put in `N` items `y` and taken out `D` of them; all of these calls have
returned. -/
structure Done (n : Nat) (y : α) (N D : Nat) (m : St w α) : Prop where
  pc : m.pc 1 = .idle
  log : m.log = List.replicate N y
  taken : m.taken = D
  enqPos : m.enqPos = BitVec.ofNat w N
  deqPos : m.deqPos = BitVec.ofNat w D
  le : D ≤ N
  cap : N ≤ D + n
  seq : ∀ p, D ≤ p → p < D + n → m.seq (p % n) = BitVec.ofNat w (if p < N then p + 1 else p)
  pub : ∀ p, p < N → m.pub p = true
  rel : ∀ p, p < D → m.rel p = true

theorem mod_window {n D p q : Nat} (h1 : D ≤ p) (h2 : p < D + n) (h3 : D ≤ q) (h4 : q < D + n)
    (h : p % n = q % n) : p = q := by
  have key : ∀ {a b : Nat}, a ≤ b → b < a + n → b % n = a % n → b = a := by
    intro a b hab hb he
    have := Nat.sub_mod_eq_zero_of_mod_eq he
    rw [Nat.mod_eq_of_lt (by omega)] at this
    omega
  rcases Nat.le_total p q with hpq | hpq
  · exact (key hpq (by omega) h.symm).symm
  · exact key hpq (by omega) h

theorem Done.enq {R : St w α → Prop} {strict : Bool} {k : Nat} (hkw : k < w - 1) {m : St w α}
    (hR : Kept R strict (2 ^ k) m) (hm : R m) {y : α} {N D : Nat} (h : Done (2 ^ k) y N D m)
    (hlt : N < D + 2 ^ k) :
    ∃ m', R m' ∧ Done (2 ^ k) y (N + 1) D m' ∧ (∀ u, u ≠ 1 → m'.pc u = m.pc u) ∧
      m'.got = m.got := by
  have hs := h.seq N h.le hlt
  rw [if_neg (by omega)] at hs
  obtain ⟨m', h1, h2, h3, h4, h5, h6, h7, h8, h9, h10, h11, h12⟩ :=
    enq1 hkw hR hm h.pc (by rw [h.log]; simp) h.enqPos hs y
  refine ⟨m', h1, ⟨h2, ?_, by rw [h9, h.taken], h6, by rw [h7, h.deqPos], by have := h.le; omega,
    by omega, ?_, ?_, ?_⟩, h3, h12⟩
  · rw [h8, h.log, List.replicate_succ']
  · intro p hp1 hp2
    rw [h4]
    by_cases hpN : p = N
    · subst hpN; rw [setf_self, if_pos (by omega)]
    · rw [setf_ne _ _ (fun hx => hpN (mod_window hp1 hp2 h.le hlt hx)), h.seq p hp1 hp2]
      by_cases hl : p < N
      · rw [if_pos hl, if_pos (by omega)]
      · rw [if_neg hl, if_neg (by omega)]
  · intro p hp
    rw [h10]
    by_cases hpN : p = N
    · subst hpN; exact setf_self _ _ _
    · rw [setf_ne _ _ hpN]; exact h.pub p (by omega)
  · intro p hp
    rw [h11]; exact h.rel p hp

theorem Done.deq {R : St w α → Prop} {strict : Bool} {k : Nat} (hkw : k < w - 1) {m : St w α}
    (hR : Kept R strict (2 ^ k) m) (hm : R m) {y : α} {N D : Nat} (h : Done (2 ^ k) y N D m)
    (hlt : D < N) :
    ∃ m', R m' ∧ Done (2 ^ k) y N (D + 1) m' ∧ (∀ u, u ≠ 1 → m'.pc u = m.pc u) ∧
      m'.got = m.got ++ [(D, m.data (D % 2 ^ k))] := by
  have hn0 := Nat.two_pow_pos k
  have hs := h.seq D (Nat.le_refl _) (by omega)
  rw [if_pos hlt] at hs
  obtain ⟨m', h1, h2, h3, h4, h5, h6, h7, h8, h9, h10, h11, h12⟩ :=
    deq1 hkw hR hm h.pc h.taken h.deqPos hs
  refine ⟨m', h1, ⟨h2, by rw [h8, h.log], h9, by rw [h6, h.enqPos], h7, hlt,
    by have := h.cap; omega, ?_, ?_, ?_⟩, h3, h12⟩
  · intro p hp1 hp2
    rw [h4]
    by_cases hpN : p = D + 2 ^ k
    · subst hpN
      rw [Nat.add_mod_right, setf_self, if_neg (by have := h.cap; omega)]
    · rw [setf_ne _ _ (fun hx => by
        have := mod_window (D := D) (by omega) (by omega) (Nat.le_refl _) (by omega) hx
        omega), h.seq p (by omega) (by omega)]
  · intro p hp
    rw [h10]; exact h.pub p hp
  · intro p hp
    rw [h11]
    by_cases hpN : p = D
    · subst hpN; exact setf_self _ _ _
    · rw [setf_ne _ _ hpN]; exact h.rel p (by omega)

theorem Kept.congr {R : St w α → Prop} {strict : Bool} {n : Nat} {m m' : St w α}
    (hR : Kept R strict n m) (h : ∀ u, u ≠ 1 → m'.pc u = m.pc u) : Kept R strict n m' := by
  intro s s' hs hpc hf hst
  exact hR s s' hs (fun u hu => (hpc u hu).trans (h u hu)) hf hst

/-- Any number of items through the queue, one at a time. -/
theorem Done.pairs {R : St w α → Prop} {strict : Bool} {k : Nat} (hkw : k < w - 1) {m : St w α}
    (hR : Kept R strict (2 ^ k) m) (hm : R m) {y : α} {N : Nat} (h : Done (2 ^ k) y N N m)
    (j : Nat) :
    ∃ m', R m' ∧ Done (2 ^ k) y (N + j) (N + j) m' ∧ (∀ u, u ≠ 1 → m'.pc u = m.pc u) := by
  induction j with
  | zero => exact ⟨m, hm, h, fun _ _ => rfl⟩
  | succ j ih =>
    obtain ⟨m1, a1, a2, a3⟩ := ih
    obtain ⟨m2, b1, b2, b3, _⟩ := a2.enq hkw (hR.congr a3) a1
      (by have := Nat.two_pow_pos k; omega)
    have b3' : ∀ u, u ≠ 1 → m2.pc u = m.pc u := fun u hu => (b3 u hu).trans (a3 u hu)
    obtain ⟨m3, c1, c2, c3, _⟩ := b2.deq hkw (hR.congr b3') b1 (by omega)
    exact ⟨m3, c1, c2, fun u hu => (c3 u hu).trans (b3' u hu)⟩

/-- Several items put in one after the other. -/
theorem Done.enqs {R : St w α → Prop} {strict : Bool} {k : Nat} (hkw : k < w - 1) {m : St w α}
    (hR : Kept R strict (2 ^ k) m) (hm : R m) {y : α} {N D : Nat} (h : Done (2 ^ k) y N D m)
    (j : Nat) (hj : N + j ≤ D + 2 ^ k) :
    ∃ m', R m' ∧ Done (2 ^ k) y (N + j) D m' ∧ (∀ u, u ≠ 1 → m'.pc u = m.pc u) ∧
      m'.got = m.got := by
  induction j with
  | zero => exact ⟨m, hm, h, fun _ _ => rfl, rfl⟩
  | succ j ih =>
    obtain ⟨m1, a1, a2, a3, a4⟩ := ih (by omega)
    obtain ⟨m2, b1, b2, b3, b4⟩ := a2.enq hkw (hR.congr a3) a1 (by omega)
    exact ⟨m2, b1, b2, fun u hu => (b3 u hu).trans (a3 u hu), b4.trans a4⟩

theorem Done.init (n : Nat) (y : α) (s : St w α) (h1 : s.pc 1 = .idle)
    (hseq : s.seq = fun i => BitVec.ofNat w i) (hlog : s.log = []) (ht : s.taken = 0)
    (he : s.enqPos = 0) (hd : s.deqPos = 0) : Done n y 0 0 s where
  pc := h1
  log := by rw [hlog]; rfl
  taken := ht
  enqPos := by rw [he]; rfl
  deqPos := by rw [hd]; rfl
  le := Nat.le_refl _
  cap := by omega
  seq := by
    intro p _ hp
    rw [hseq, if_neg (by omega)]
    dsimp only
    rw [Nat.mod_eq_of_lt (by omega)]
  pub := by intro p hp; omega
  rel := by intro p hp; omega

end Phosphor.MpmcWord
