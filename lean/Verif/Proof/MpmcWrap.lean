import Verif.Model.MpmcWrap
import Verif.Proof.Mpmc
/-
The queue with machine words does the same as the queue with unbounded positions as long as no
thread is overtaken by about half of the range of a word.
-/
namespace Phosphor.MpmcWord
variable {α : Type} {w : Nat}

/-- A program counter with unbounded positions, seen through words of `w` bits. -/
def pcW (w : Nat) : Mpmc.Pc α → Pc w α
  | .idle => .idle
  | .enqSeq x p => .enqSeq x (BitVec.ofNat w p) p
  | .enqReload x => .enqReload x
  | .enqCas x p => .enqCas x (BitVec.ofNat w p) p
  | .enqWrite x p => .enqWrite x (BitVec.ofNat w p) p
  | .enqPub x p => .enqPub x (BitVec.ofNat w p) p
  | .deqSeq p => .deqSeq (BitVec.ofNat w p) p
  | .deqReload => .deqReload
  | .deqCas p => .deqCas (BitVec.ofNat w p) p
  | .deqRead p => .deqRead (BitVec.ofNat w p) p
  | .deqPub p v => .deqPub (BitVec.ofNat w p) p v

/-- A state with unbounded positions, seen through words of `w` bits. -/
def stW (w : Nat) (s : Mpmc.St α) : St w α where
  seq := fun i => BitVec.ofNat w (s.seq i)
  data := s.data
  enqPos := BitVec.ofNat w s.enqPos
  deqPos := BitVec.ofNat w s.deqPos
  pc := fun t => pcW w (s.pc t)
  log := s.log
  taken := s.deqPos
  pub := s.pub
  rel := s.rel
  got := s.got

theorem stW_init : stW w (Mpmc.St.init : Mpmc.St α) = St.init w := rfl

theorem setf_comp {β γ : Type} (f : β → γ) (g : Nat → β) (t : Nat) (b : β) :
    (fun u => f (setf g t b u)) = setf (fun u => f (g u)) t (f b) := by
  funext u
  by_cases hu : u = t
  · subst hu; simp
  · simp [setf_ne _ _ hu]

theorem mask_eq (w k : Nat) (_ : k ≤ w) : mask w (2 ^ k) = BitVec.ofNat w (2 ^ k - 1) := by
  unfold mask
  have : 2 ^ k = (2 ^ k - 1) + 1 := by have := Nat.two_pow_pos k; omega
  have e : BitVec.ofNat w (2 ^ k) = BitVec.ofNat w (2 ^ k - 1) + 1 := by
    rw [show (1 : BitVec w) = BitVec.ofNat w 1 from rfl, ← BitVec.ofNat_add, ← this]
  rw [e, BitVec.add_sub_cancel]

theorem idx_ofNat {k : Nat} (hk : k ≤ w) (p : Nat) :
    idx (2 ^ k) (BitVec.ofNat w p) = p % 2 ^ k := by
  unfold idx
  rw [mask_eq w k hk, BitVec.toNat_and, BitVec.toNat_ofNat, BitVec.toNat_ofNat]
  have h1 : (2 ^ k - 1) % 2 ^ w = 2 ^ k - 1 := by
    apply Nat.mod_eq_of_lt
    have := Nat.pow_le_pow_right (n := 2) (by omega) hk
    have := Nat.two_pow_pos k
    omega
  rw [h1, Nat.and_two_pow_sub_one_eq_mod]
  exact Nat.mod_mod_of_dvd _ (Nat.pow_dvd_pow 2 hk)

/-- Sequence numbers stay less than one round ahead of the enqueue position. -/
theorem seq_lt {k : Nat} (hk : 1 ≤ k) {s : Mpmc.St α} (h : Mpmc.Reachable (2 ^ k) s) :
    ∀ c, c < 2 ^ k → s.seq c < s.enqPos + 2 ^ k := by
  induction h with
  | init => intro c hc; simpa [Mpmc.St.init] using hc
  | @step s s' hr hst ih =>
    have hi := Mpmc.inv_reachable hk hr
    have hd := hi.deqLe
    intro c hc
    have ihc := ih c hc
    cases hst with
    | @enqCasOk t x pos hpc heq => subst heq; show s.seq c < s.enqPos + 1 + 2 ^ k; omega
    | @enqPub t x pos hpc =>
      have := hi.wlt t pos (by rw [hpc]; rfl)
      show setf s.seq _ _ c < s.enqPos + 2 ^ k
      by_cases hcc : c = Mpmc.idx (2 ^ k) pos
      · rw [← hcc, setf_self]; have := Nat.two_pow_pos k; omega
      · rw [setf_ne _ _ hcc]; exact ihc
    | @deqPub t pos v hpc =>
      have := hi.rlt t pos (by rw [hpc]; rfl)
      show setf s.seq _ _ c < s.enqPos + 2 ^ k
      by_cases hcc : c = Mpmc.idx (2 ^ k) pos
      · rw [← hcc, setf_self]; have := Nat.two_pow_pos k; omega
      · rw [setf_ne _ _ hcc]; exact ihc
    | _ => exact ihc

/-- Sequence numbers are not more than one round behind a position that has been loaded. -/
theorem seq_ge {k : Nat} {s : Mpmc.St α} (h : Mpmc.Inv (2 ^ k) s) {pos : Nat}
    (hle : pos ≤ s.enqPos) : pos ≤ s.seq (pos % 2 ^ k) + 2 ^ k := by
  have h0 : 0 < 2 ^ k := Nat.two_pow_pos k
  generalize 2 ^ k = n at *
  by_cases hlt : pos < s.enqPos
  · cases hp : s.pub pos with
    | false => have := h.claimed pos hlt hp; omega
    | true => have := h.monoPub pos hp; omega
  · by_cases hn : pos < n
    · omega
    · have hm : (pos - n) % n = pos % n := by rw [← Nat.mod_eq_sub_mod (by omega)]
      cases hp : s.pub (pos - n) with
      | false => have := h.claimed (pos - n) (by omega) hp; rw [hm] at this; omega
      | true => have := h.monoPub (pos - n) hp; rw [hm] at this; omega

/-- The machine's difference of two words is that of the numbers they stand for, when those are
less than half of the range of a word apart. -/
theorem dif_wrap {a b : Nat} (hw : 1 ≤ w) (h1 : b < a + 2 ^ (w - 1)) (h2 : a < b + 2 ^ (w - 1)) :
    dif false (BitVec.ofNat w a) (BitVec.ofNat w b) = some ((a : Int) - b) := by
  unfold dif
  have hpow : (2 : Nat) ^ w = 2 * 2 ^ (w - 1) := by
    rw [← Nat.pow_succ']; congr 1; omega
  simp only [Bool.false_eq_true, false_and, if_false, Option.some.injEq]
  rw [BitVec.toInt_ofNat', BitVec.toInt_ofNat', Int.bmod_sub_bmod, Int.sub_bmod_bmod]
  apply Int.bmod_eq_of_le
  · rw [hpow]; omega
  · rw [hpow]; omega

/-- In C++ the difference is defined, and the same, when the numbers are below half of the
range of a word. -/
theorem dif_strict {a b : Nat} (hw : 1 ≤ w) (h1 : a < 2 ^ (w - 1)) (h2 : b < 2 ^ (w - 1)) :
    dif true (BitVec.ofNat w a) (BitVec.ofNat w b) = some ((a : Int) - b) := by
  have hd := dif_wrap (w := w) (a := a) (b := b) hw (by omega) (by omega)
  unfold dif at hd ⊢
  simp only [Bool.false_eq_true, false_and, if_false] at hd
  have hpow : (2 : Nat) ^ w = 2 * 2 ^ (w - 1) := by
    rw [← Nat.pow_succ']; congr 1; omega
  have ht : ∀ c : Nat, c < 2 ^ (w - 1) → (BitVec.ofNat w c).toInt = c := by
    intro c hc
    rw [BitVec.toInt_ofNat']
    apply Int.bmod_eq_of_le
    · rw [hpow]; omega
    · rw [hpow]; omega
  dsimp only
  rw [if_neg, hd]
  rw [ht a h1, ht b h2]
  have e : ((2 : Int) ^ (w - 1)) = ((2 ^ (w - 1) : Nat) : Int) := by push_cast; rfl
  rw [e]
  omega

/-- Two words are equal only if their numbers are, when these are less than a word apart. -/
theorem ofNat_inj {a b : Nat} (h1 : b ≤ a) (h2 : a < b + 2 ^ w)
    (h : BitVec.ofNat w a = BitVec.ofNat w b) : a = b := by
  have h' := congrArg BitVec.toNat h
  rw [BitVec.toNat_ofNat, BitVec.toNat_ofNat] at h'
  have h3 : (a - b) % 2 ^ w = 0 := Nat.sub_mod_eq_zero_of_mod_eq h'
  rw [Nat.mod_eq_of_lt (by omega)] at h3
  omega

/-- What is known of the undisturbed differences: either the machine wraps, or the numbers are
small. -/
def Small (strict : Bool) (w n : Nat) (s : Mpmc.St α) : Prop :=
  strict = true → s.enqPos + 2 * n ≤ 2 ^ (w - 1)

theorem dif_ok {strict : Bool} {a b : Nat} (hw : 1 ≤ w) (h1 : b < a + 2 ^ (w - 1))
    (h2 : a < b + 2 ^ (w - 1)) (h3 : strict = true → a < 2 ^ (w - 1) ∧ b < 2 ^ (w - 1)) :
    dif strict (BitVec.ofNat w a) (BitVec.ofNat w b) = some ((a : Int) - b) := by
  cases strict with
  | false => exact dif_wrap hw h1 h2
  | true => exact dif_strict hw (h3 rfl).1 (h3 rfl).2

theorem enqNext_ok {strict : Bool} (hw : 1 ≤ w) (x : α) {pos seq : Nat}
    (h1 : pos < seq + 2 ^ (w - 1)) (h2 : seq < pos + 2 ^ (w - 1))
    (h3 : strict = true → seq < 2 ^ (w - 1) ∧ pos < 2 ^ (w - 1)) :
    enqNext strict x (BitVec.ofNat w pos) pos (BitVec.ofNat w seq) =
      pcW w (Mpmc.enqNext x pos seq) := by
  unfold enqNext Mpmc.enqNext
  rw [dif_ok hw h1 h2 h3]
  dsimp only
  split
  · rfl
  · split <;> rfl

theorem deqNext_ok {strict : Bool} (hw : 1 ≤ w) {pos seq : Nat}
    (h1 : pos + 1 < seq + 2 ^ (w - 1)) (h2 : seq < pos + 1 + 2 ^ (w - 1))
    (h3 : strict = true → seq < 2 ^ (w - 1) ∧ pos + 1 < 2 ^ (w - 1)) :
    (deqNext strict (BitVec.ofNat w pos) pos (BitVec.ofNat w seq) : Pc w α) =
      pcW w (Mpmc.deqNext pos seq) := by
  unfold deqNext Mpmc.deqNext
  have e : BitVec.ofNat w pos + 1 = BitVec.ofNat w (pos + 1) := by
    rw [BitVec.ofNat_add]; rfl
  rw [e, dif_ok hw h1 h2 h3]
  dsimp only
  split
  · rfl
  · split <;> rfl

theorem goto_stW (s : Mpmc.St α) (t : Nat) (p : Mpmc.Pc α) :
    (stW w s).goto t (pcW w p) = stW w (s.goto t p) := by
  unfold St.goto stW Mpmc.St.goto
  simp only [setf_comp (pcW w) s.pc t p]

/-- Every step of the machine from a fresh state is a step with unbounded positions. -/
theorem sim_back {strict : Bool} {k : Nat} (hk : 1 ≤ k) (hkw : k < w) {s : Mpmc.St α}
    (hr : Mpmc.Reachable (2 ^ k) s) (hf : Fresh (2 ^ k) (stW w s))
    (hsm : Small strict w (2 ^ k) s) {m : St w α} (hst : Step strict (2 ^ k) (stW w s) m) :
    ∃ s', Mpmc.Step (2 ^ k) s s' ∧ m = stW w s' := by
  have hi := Mpmc.inv_reachable hk hr
  have hsl := seq_lt hk hr
  have hw : 1 ≤ w := by omega
  have hn0 := Nat.two_pow_pos k
  have hde := hi.deqLe
  have hroom := Mpmc.Inv.room hi
  have hlen := hi.len
  have hcap : s.enqPos ≤ s.deqPos + 2 ^ k := by
    by_cases hlt : s.enqPos ≤ 2 ^ k
    · omega
    · have := hi.relLt _ (hi.room (s.enqPos - 1) (by omega) (by omega)); omega
  have hpw : (2 : Nat) ^ w = 2 * 2 ^ (w - 1) := by
    rw [← Nat.pow_succ']; congr 1; omega
  have hidx : ∀ p, Mpmc.idx (2 ^ k) p = p % 2 ^ k := Mpmc.idx_eq k
  have hidxW : ∀ p, idx (2 ^ k) (BitVec.ofNat w p) = p % 2 ^ k := idx_ofNat (by omega)
  cases hst with
  | @callEnq t x hpc =>
    have hp : s.pc t = .idle := by
      change pcW w (s.pc t) = _ at hpc
      generalize s.pc t = q at hpc ⊢
      cases q <;> first | rfl | cases hpc
    refine ⟨_, Mpmc.Step.callEnq (t := t) (x := x) hp, ?_⟩
    rw [← goto_stW]
    show (stW w s).goto t (.enqSeq x (BitVec.ofNat w s.enqPos) s.log.length) = _
    rw [hlen]; rfl
  | @enqReload t x hpc =>
    have hp : s.pc t = .enqReload x := by
      change pcW w (s.pc t) = _ at hpc
      generalize s.pc t = q at hpc ⊢
      cases q <;> cases hpc
      rfl
    refine ⟨_, Mpmc.Step.enqReload (t := t) (x := x) hp, ?_⟩
    rw [← goto_stW]
    show (stW w s).goto t (.enqSeq x (BitVec.ofNat w s.enqPos) s.log.length) = _
    rw [hlen]; rfl
  | @enqCasFail t x pos b hpc =>
    have hp : s.pc t = .enqCas x b := by
      change pcW w (s.pc t) = _ at hpc
      generalize s.pc t = q at hpc ⊢
      cases q <;> cases hpc
      rfl
    refine ⟨_, Mpmc.Step.enqCasFail (t := t) (x := x) hp, ?_⟩
    rw [← goto_stW]
    show (stW w s).goto t (.enqSeq x (BitVec.ofNat w s.enqPos) s.log.length) = _
    rw [hlen]; rfl
  | @callDeq t hpc =>
    have hp : s.pc t = .idle := by
      change pcW w (s.pc t) = _ at hpc
      generalize s.pc t = q at hpc ⊢
      cases q <;> first | rfl | cases hpc
    exact ⟨_, Mpmc.Step.callDeq (t := t) hp, by rw [← goto_stW]; rfl⟩
  | @deqReload t hpc =>
    have hp : s.pc t = .deqReload := by
      change pcW w (s.pc t) = _ at hpc
      generalize s.pc t = q at hpc ⊢
      cases q <;> first | rfl | cases hpc
    exact ⟨_, Mpmc.Step.deqReload (t := t) hp, by rw [← goto_stW]; rfl⟩
  | @deqCasFail t pos b hpc =>
    have hp : s.pc t = .deqCas b := by
      change pcW w (s.pc t) = _ at hpc
      generalize s.pc t = q at hpc ⊢
      cases q <;> cases hpc
      rfl
    exact ⟨_, Mpmc.Step.deqCasFail (t := t) hp, by rw [← goto_stW]; rfl⟩
  | @enqSeq t x pos b hpc =>
    have hp : s.pc t = .enqSeq x b ∧ pos = BitVec.ofNat w b := by
      change pcW w (s.pc t) = _ at hpc
      generalize s.pc t = q at hpc ⊢
      cases q <;> cases hpc
      exact ⟨rfl, rfl⟩
    obtain ⟨hp, rfl⟩ := hp
    have hft := hf t
    rw [hpc] at hft
    change s.log.length + _ ≤ _ at hft
    rw [hlen] at hft
    have hle := hi.pcs t; rw [hp] at hle
    change b ≤ s.enqPos at hle
    have hge := seq_ge hi hle
    have hlt := hsl (b % 2 ^ k) (Nat.mod_lt _ hn0)
    refine ⟨_, Mpmc.Step.enqSeq (t := t) (x := x) hp, ?_⟩
    rw [← goto_stW, hidx, hidxW]
    congr 1
    refine enqNext_ok hw x (by omega) (by omega) ?_
    intro hs; have := hsm hs; omega
  | @deqSeq t pos b hpc =>
    have hp : s.pc t = .deqSeq b ∧ pos = BitVec.ofNat w b := by
      change pcW w (s.pc t) = _ at hpc
      generalize s.pc t = q at hpc ⊢
      cases q <;> cases hpc
      exact ⟨rfl, rfl⟩
    obtain ⟨hp, rfl⟩ := hp
    have hft := hf t
    rw [hpc] at hft
    change s.deqPos + _ ≤ _ at hft
    have hle := hi.pcs t; rw [hp] at hle
    change b ≤ s.deqPos at hle
    have hge := seq_ge hi (pos := b) (by omega)
    have hlt := hsl (b % 2 ^ k) (Nat.mod_lt _ hn0)
    have hn2 : 2 ≤ 2 ^ k := by
      calc 2 = 2 ^ 1 := rfl
        _ ≤ 2 ^ k := Nat.pow_le_pow_right (by omega) hk
    refine ⟨_, Mpmc.Step.deqSeq (t := t) hp, ?_⟩
    rw [← goto_stW, hidx, hidxW]
    congr 1
    refine deqNext_ok hw (by omega) (by omega) ?_
    intro hs; have := hsm hs; omega
  | @enqCasOk t x pos b hpc heq =>
    have hp : s.pc t = .enqCas x b ∧ pos = BitVec.ofNat w b := by
      change pcW w (s.pc t) = _ at hpc
      generalize s.pc t = q at hpc ⊢
      cases q <;> cases hpc
      exact ⟨rfl, rfl⟩
    obtain ⟨hp, rfl⟩ := hp
    have hft := hf t
    rw [hpc] at hft
    change s.log.length + _ ≤ _ at hft
    rw [hlen] at hft
    have hle := hi.pcs t; rw [hp] at hle
    have he : s.enqPos = b := ofNat_inj hle.1 (by omega) heq
    subst he
    refine ⟨_, Mpmc.Step.enqCasOk (t := t) (x := x) hp rfl, ?_⟩
    simp only [stW, St.goto, Mpmc.St.goto, setf_comp (pcW w), hlen, BitVec.ofNat_add]
    rfl
  | @deqCasOk t pos b hpc heq =>
    have hp : s.pc t = .deqCas b ∧ pos = BitVec.ofNat w b := by
      change pcW w (s.pc t) = _ at hpc
      generalize s.pc t = q at hpc ⊢
      cases q <;> cases hpc
      exact ⟨rfl, rfl⟩
    obtain ⟨hp, rfl⟩ := hp
    have hft := hf t
    rw [hpc] at hft
    change s.deqPos + _ ≤ _ at hft
    have hle := hi.pcs t; rw [hp] at hle
    have he : s.deqPos = b := ofNat_inj hle.1 (by omega) heq
    subst he
    refine ⟨_, Mpmc.Step.deqCasOk (t := t) hp rfl, ?_⟩
    simp only [stW, St.goto, Mpmc.St.goto, setf_comp (pcW w), BitVec.ofNat_add]
    rfl
  | @enqWrite t x pos b hpc =>
    have hp : s.pc t = .enqWrite x b ∧ pos = BitVec.ofNat w b := by
      change pcW w (s.pc t) = _ at hpc
      generalize s.pc t = q at hpc ⊢
      cases q <;> cases hpc
      exact ⟨rfl, rfl⟩
    obtain ⟨hp, rfl⟩ := hp
    refine ⟨_, Mpmc.Step.enqWrite (t := t) (x := x) hp, ?_⟩
    simp only [stW, St.goto, Mpmc.St.goto, setf_comp (pcW w), hidx, hidxW]
    rfl
  | @enqPub t x pos b hpc =>
    have hp : s.pc t = .enqPub x b ∧ pos = BitVec.ofNat w b := by
      change pcW w (s.pc t) = _ at hpc
      generalize s.pc t = q at hpc ⊢
      cases q <;> cases hpc
      exact ⟨rfl, rfl⟩
    obtain ⟨hp, rfl⟩ := hp
    refine ⟨_, Mpmc.Step.enqPub (t := t) (x := x) hp, ?_⟩
    simp only [stW, St.goto, Mpmc.St.goto, setf_comp (pcW w), setf_comp (BitVec.ofNat w),
      hidx, hidxW, BitVec.ofNat_add]
    rfl
  | @deqRead t pos b hpc =>
    have hp : s.pc t = .deqRead b ∧ pos = BitVec.ofNat w b := by
      change pcW w (s.pc t) = _ at hpc
      generalize s.pc t = q at hpc ⊢
      cases q <;> cases hpc
      exact ⟨rfl, rfl⟩
    obtain ⟨hp, rfl⟩ := hp
    refine ⟨_, Mpmc.Step.deqRead (t := t) hp, ?_⟩
    rw [← goto_stW, hidx, hidxW]
    rfl
  | @deqPub t pos b v hpc =>
    have hp : s.pc t = .deqPub b v ∧ pos = BitVec.ofNat w b := by
      change pcW w (s.pc t) = _ at hpc
      generalize s.pc t = q at hpc ⊢
      cases q <;> cases hpc
      exact ⟨rfl, rfl⟩
    obtain ⟨hp, rfl⟩ := hp
    refine ⟨_, Mpmc.Step.deqPub (t := t) hp, ?_⟩
    simp only [stW, St.goto, Mpmc.St.goto, setf_comp (pcW w), setf_comp (BitVec.ofNat w),
      hidx, hidxW, BitVec.ofNat_add, mask_eq w k (by omega)]
    rfl

/-- The machine without long delays is the queue with unbounded positions. -/
theorem refine_wrap {k : Nat} (hk : 1 ≤ k) (hkw : k < w) {m : St w α}
    (h : ReachableFresh false (2 ^ k) m) : ∃ s, Mpmc.Reachable (2 ^ k) s ∧ m = stW w s := by
  induction h with
  | init => exact ⟨_, .init, stW_init.symm⟩
  | step _ hf hst ih =>
    obtain ⟨s, hs, rfl⟩ := ih
    obtain ⟨s', hst', rfl⟩ := sim_back hk hkw hs hf (by intro hx; cases hx) hst
    exact ⟨s', hs.step hst', rfl⟩

end Phosphor.MpmcWord
