import Verif.Model.Mpmc
namespace Phosphor.Mpmc
variable {α : Type}

theorem idx_eq (k pos : Nat) : idx (2 ^ k) pos = pos % 2 ^ k := by
  unfold idx; exact Nat.and_two_pow_sub_one_eq_mod pos k

/-- Position an enqueuer has claimed but not yet published. -/
def Pc.enqAt : Pc α → Option Nat
  | .enqWrite _ p | .enqPub _ p => some p
  | _ => none

/-- Position a dequeuer has claimed but not yet released. -/
def Pc.deqAt : Pc α → Option Nat
  | .deqRead p | .deqPub p _ => some p
  | _ => none

/-- What is known at each program counter. -/
def PcOk (n : Nat) (s : St α) : Pc α → Prop
  | .enqSeq _ pos => pos ≤ s.enqPos
  | .enqCas _ pos => pos ≤ s.enqPos ∧ (pos = s.enqPos → n ≤ pos → s.rel (pos - n) = true)
  | .enqWrite x pos => s.log[pos]? = some x
  | .enqPub x pos => s.log[pos]? = some x ∧ s.data (pos % n) = some x
  | .deqSeq pos => pos ≤ s.deqPos
  | .deqCas pos => pos ≤ s.deqPos ∧ s.pub pos = true
  | .deqPub pos v => s.log[pos]? = v
  | _ => True

structure Inv (n : Nat) (s : St α) : Prop where
  len : s.log.length = s.enqPos
  relLt : ∀ p, s.rel p = true → p < s.deqPos
  pubLt : ∀ p, s.pub p = true → p < s.enqPos
  deqPub : ∀ p, p < s.deqPos → s.pub p = true
  wlt : ∀ t p, (s.pc t).enqAt = some p → p < s.enqPos ∧ s.pub p = false
  wuniq : ∀ t u p, (s.pc t).enqAt = some p → (s.pc u).enqAt = some p → t = u
  wex : ∀ p, p < s.enqPos → s.pub p = false → ∃ t, (s.pc t).enqAt = some p
  rlt : ∀ t p, (s.pc t).deqAt = some p → p < s.deqPos ∧ s.rel p = false
  runiq : ∀ t u p, (s.pc t).deqAt = some p → (s.pc u).deqAt = some p → t = u
  rex : ∀ p, p < s.deqPos → s.rel p = false → ∃ t, (s.pc t).deqAt = some p
  room : ∀ p, n ≤ p → p < s.enqPos → s.rel (p - n) = true
  claimed : ∀ p, p < s.enqPos → s.pub p = false → s.seq (p % n) = p
  full : ∀ p, s.pub p = true → s.rel p = false →
    s.seq (p % n) = p + 1 ∧ s.data (p % n) = s.log[p]?
  empty : ∀ p, s.rel p = true → s.enqPos ≤ p + n → s.seq (p % n) = p + n
  fresh : ∀ p, p < n → s.enqPos ≤ p → s.seq p = p
  monoPub : ∀ p, s.pub p = true → p + 1 ≤ s.seq (p % n)
  gotOk : ∀ (p : Nat) (v : Option α), (p, v) ∈ s.got → s.rel p = true ∧ s.log[p]? = v
  gotNodup : (s.got.map Prod.fst).Nodup
  pcs : ∀ t, PcOk n s (s.pc t)

theorem inv_init (n : Nat) : Inv n (St.init : St α) where
  len := rfl
  relLt := by intro p h; cases h
  pubLt := by intro p h; cases h
  deqPub := by intro p h; exact absurd h (Nat.not_lt_zero _)
  wlt := by intro t p h; cases h
  wuniq := by intro t u p h; cases h
  wex := by intro p h; exact absurd h (Nat.not_lt_zero _)
  rlt := by intro t p h; cases h
  runiq := by intro t u p h; cases h
  rex := by intro p h; exact absurd h (Nat.not_lt_zero _)
  room := by intro p _ h; exact absurd h (Nat.not_lt_zero _)
  claimed := by intro p h; exact absurd h (Nat.not_lt_zero _)
  full := by intro p h; cases h
  empty := by intro p h; cases h
  fresh := by intro p h _; rfl
  monoPub := by intro p h; cases h
  gotOk := by intro p v h; cases h
  gotNodup := List.nodup_nil
  pcs := fun _ => trivial

namespace Inv
variable {n : Nat} {s : St α}

theorem deqLe (h : Inv n s) : s.deqPos ≤ s.enqPos := by
  rcases Nat.eq_zero_or_pos s.deqPos with h0 | h0
  · omega
  · have := h.pubLt _ (h.deqPub (s.deqPos - 1) (by omega)); omega

/-- The sequence number an enqueuer waits for means its position is free to be claimed. -/
theorem enq_ready (h : Inv n s) (hn : 2 ≤ n) (hp : n ≤ s.enqPos)
    (hs : s.seq (s.enqPos % n) = s.enqPos) : s.rel (s.enqPos - n) = true := by
  cases hr : s.rel (s.enqPos - n) with
  | true => rfl
  | false =>
    exfalso
    have hm : (s.enqPos - n) % n = s.enqPos % n := by
      rw [← Nat.mod_eq_sub_mod hp]
    cases hpub : s.pub (s.enqPos - n) with
    | false =>
      have := h.claimed _ (by omega) hpub
      rw [hm] at this; omega
    | true =>
      have := (h.full _ hpub hr).1
      rw [hm] at this; omega

/-- The cell of the next enqueue position is ready once its previous item is released. -/
theorem enq_ready' (h : Inv n s) (hp : n ≤ s.enqPos → s.rel (s.enqPos - n) = true) :
    s.seq (s.enqPos % n) = s.enqPos := by
  by_cases hlt : s.enqPos < n
  · rw [Nat.mod_eq_of_lt hlt]; exact h.fresh _ hlt (Nat.le_refl _)
  · have hge : n ≤ s.enqPos := by omega
    have hm : (s.enqPos - n) % n = s.enqPos % n := by
      rw [← Nat.mod_eq_sub_mod hge]
    have := h.empty _ (hp hge) (by omega)
    rw [hm] at this; omega

/-- A lower sequence number than the position: the queue is full at that moment. -/
theorem enq_fail (h : Inv n s) {pos : Nat} (hle : pos ≤ s.enqPos)
    (hs : s.seq (pos % n) < pos) : pos = s.enqPos ∧ n ≤ pos ∧ s.rel (pos - n) = false := by
  by_cases hlt : pos < s.enqPos
  · exfalso
    cases hpub : s.pub pos with
    | false => have := h.claimed pos hlt hpub; omega
    | true => have := h.monoPub pos hpub; omega
  · have he : pos = s.enqPos := by omega
    subst he
    have hno : ¬ (n ≤ s.enqPos → s.rel (s.enqPos - n) = true) := by
      intro h'; have := h.enq_ready' h'; omega
    refine ⟨rfl, ?_, ?_⟩
    · apply Classical.byContradiction; intro h'; exact hno (fun h'' => absurd h'' h')
    · cases hr : s.rel (s.enqPos - n) with
      | false => rfl
      | true => exact absurd (fun _ => hr) hno

/-- The sequence number a dequeuer waits for means its position has been published. -/
theorem deq_ready (h : Inv n s) (hn : 2 ≤ n) {pos : Nat} (hle : pos ≤ s.deqPos)
    (hs : s.seq (pos % n) = pos + 1) : s.pub pos = true := by
  cases hpub : s.pub pos with
  | true => rfl
  | false =>
    exfalso
    have hd := h.deqLe
    by_cases hlt : pos < s.enqPos
    · have := h.claimed pos hlt hpub; omega
    · have he : pos = s.enqPos := by omega
      by_cases hpn : pos < n
      · have := h.fresh pos hpn (by omega); rw [Nat.mod_eq_of_lt hpn] at hs; omega
      · have hm : (pos - n) % n = pos % n := by
          rw [← Nat.mod_eq_sub_mod (by omega : n ≤ pos)]
        cases hr : s.rel (pos - n) with
        | true => have := h.empty _ hr (by omega); rw [hm] at this; omega
        | false =>
          have := (h.full _ (h.deqPub (pos - n) (by omega)) hr).1
          rw [hm] at this; omega

theorem deq_fail (h : Inv n s) {pos : Nat} (hle : pos ≤ s.deqPos)
    (hs : s.seq (pos % n) < pos + 1) : pos = s.deqPos ∧ s.pub pos = false := by
  have hp : s.pub pos = false := by
    cases hpub : s.pub pos with
    | false => rfl
    | true => have := h.monoPub pos hpub; omega
  refine ⟨?_, hp⟩
  apply Classical.byContradiction
  intro hne
  have := h.deqPub pos (by omega)
  rw [hp] at this; cases this

end Inv

theorem mod_succ_ne {n p q : Nat} (hn : 2 ≤ n) (h : p % n = q % n) : p ≠ q + 1 := by
  rintro rfl
  have h1 : (q + 1) % n = if (q % n) + 1 = n then 0 else q % n + 1 := by
    rw [Nat.add_mod]
    have hlt : q % n < n := Nat.mod_lt _ (by omega)
    rw [Nat.mod_eq_of_lt (by omega : 1 < n)]
    split
    · next h' => rw [h']; exact Nat.mod_self n
    · next h' => exact Nat.mod_eq_of_lt (by omega)
  rw [h1] at h
  split at h <;> omega

/-- Steps that only move the program counter of one thread. -/
theorem inv_goto {n : Nat} {s : St α} (h : Inv n s) (t : Nat) (p : Pc α) (hp : PcOk n s p)
    (he : p.enqAt = (s.pc t).enqAt) (hd : p.deqAt = (s.pc t).deqAt) : Inv n (s.goto t p) := by
  have hE : ∀ u, ((s.goto t p).pc u).enqAt = (s.pc u).enqAt := by
    intro u; by_cases hu : u = t
    · subst hu; simp [St.goto, he]
    · simp [St.goto, setf_ne _ _ hu]
  have hD : ∀ u, ((s.goto t p).pc u).deqAt = (s.pc u).deqAt := by
    intro u; by_cases hu : u = t
    · subst hu; simp [St.goto, hd]
    · simp [St.goto, setf_ne _ _ hu]
  exact {
    len := h.len, relLt := h.relLt, pubLt := h.pubLt, deqPub := h.deqPub
    wlt := by intro u q; rw [hE]; exact h.wlt u q
    wuniq := by intro u v q; rw [hE, hE]; exact h.wuniq u v q
    wex := by intro q h1 h2; simp only [hE]; exact h.wex q h1 h2
    rlt := by intro u q; rw [hD]; exact h.rlt u q
    runiq := by intro u v q; rw [hD, hD]; exact h.runiq u v q
    rex := by intro q h1 h2; simp only [hD]; exact h.rex q h1 h2
    room := h.room, claimed := h.claimed, full := h.full, empty := h.empty, fresh := h.fresh
    monoPub := h.monoPub, gotOk := h.gotOk, gotNodup := h.gotNodup
    pcs := by
      intro u
      have : PcOk n s ((s.goto t p).pc u) := by
        by_cases hu : u = t
        · subst hu; simpa [St.goto] using hp
        · simp only [St.goto, setf_ne _ _ hu]; exact h.pcs u
      generalize (s.goto t p).pc u = q at this ⊢
      cases q <;> exact this }

theorem enqNext_ok {n : Nat} {s : St α} (h : Inv n s) (hn : 2 ≤ n) (x : α) {pos : Nat}
    (hle : pos ≤ s.enqPos) : PcOk n s (enqNext x pos (s.seq (pos % n))) := by
  unfold enqNext
  dsimp only
  split
  · next hz =>
    refine ⟨hle, ?_⟩
    rintro rfl hge
    exact h.enq_ready hn hge (by omega)
  · split <;> trivial

theorem enqNext_at (x : α) (pos seq : Nat) :
    (enqNext x pos seq).enqAt = none ∧ (enqNext x pos seq).deqAt = none := by
  unfold enqNext; dsimp only
  split
  · exact ⟨rfl, rfl⟩
  · split <;> exact ⟨rfl, rfl⟩

theorem deqNext_ok {n : Nat} {s : St α} (h : Inv n s) (hn : 2 ≤ n) {pos : Nat}
    (hle : pos ≤ s.deqPos) : PcOk n s (deqNext pos (s.seq (pos % n))) := by
  unfold deqNext
  dsimp only
  split
  · next hz => exact ⟨hle, h.deq_ready hn hle (by omega)⟩
  · split <;> trivial

theorem deqNext_at (pos seq : Nat) :
    (deqNext pos seq : Pc α).enqAt = none ∧ (deqNext pos seq : Pc α).deqAt = none := by
  unfold deqNext; dsimp only
  split
  · exact ⟨rfl, rfl⟩
  · split <;> exact ⟨rfl, rfl⟩

theorem inv_step {k : Nat} (hk : 1 ≤ k) {s s' : St α} (h : Inv (2 ^ k) s)
    (st : Step (2 ^ k) s s') : Inv (2 ^ k) s' := by
  have hn : 2 ≤ 2 ^ k := by
    calc 2 = 2 ^ 1 := rfl
      _ ≤ 2 ^ k := Nat.pow_le_pow_right (by omega) hk
  have hidx := idx_eq k
  generalize 2 ^ k = n at *
  have hpcs := h.pcs
  cases st with
  | @callEnq t x hpc =>
    exact inv_goto h _ _ (Nat.le_refl _) (by rw [hpc]; rfl) (by rw [hpc]; rfl)
  | @enqReload t x hpc =>
    exact inv_goto h _ _ (Nat.le_refl _) (by rw [hpc]; rfl) (by rw [hpc]; rfl)
  | @enqCasFail t x pos hpc =>
    exact inv_goto h _ _ (Nat.le_refl _) (by rw [hpc]; rfl) (by rw [hpc]; rfl)
  | @callDeq t hpc =>
    exact inv_goto h _ _ (Nat.le_refl _) (by rw [hpc]; rfl) (by rw [hpc]; rfl)
  | @deqReload t hpc =>
    exact inv_goto h _ _ (Nat.le_refl _) (by rw [hpc]; rfl) (by rw [hpc]; rfl)
  | @deqCasFail t pos hpc =>
    exact inv_goto h _ _ (Nat.le_refl _) (by rw [hpc]; rfl) (by rw [hpc]; rfl)
  | @enqSeq t x pos hpc =>
    have hp := hpcs t; rw [hpc] at hp
    have ha := enqNext_at x pos (s.seq (pos % n))
    rw [hidx]
    exact inv_goto h _ _ (enqNext_ok h hn x hp) (by rw [ha.1, hpc]; rfl) (by rw [ha.2, hpc]; rfl)
  | @deqSeq t pos hpc =>
    have hp := hpcs t; rw [hpc] at hp
    have ha := deqNext_at (α := α) pos (s.seq (pos % n))
    rw [hidx]
    exact inv_goto h _ _ (deqNext_ok h hn hp) (by rw [ha.1, hpc]; rfl) (by rw [ha.2, hpc]; rfl)
  | @deqRead t pos hpc =>
    have hr := h.rlt t pos (by rw [hpc]; rfl)
    rw [hidx]
    refine inv_goto h _ _ ?_ (by rw [hpc]; rfl) (by rw [hpc]; rfl)
    exact ((h.full pos (h.deqPub pos hr.1) hr.2).2).symm
  | @enqCasOk t x pos hpc heq =>
    subst heq
    have hp := hpcs t; rw [hpc] at hp
    have hready := h.enq_ready' (hp.2 rfl)
    have hE : ∀ u, u ≠ t → setf s.pc t (.enqWrite x s.enqPos) u = s.pc u :=
      fun u hu => setf_ne _ _ hu
    have hlog : ∀ (p : Nat) (v : α), s.log[p]? = some v → (s.log ++ [x])[p]? = some v := by
      intro p v hv
      rw [List.getElem?_append_left]
      · exact hv
      · exact (List.getElem?_eq_some_iff.1 hv).1
    have hlogO : ∀ p, p < s.enqPos → (s.log ++ [x])[p]? = s.log[p]? := by
      intro p hlt
      exact List.getElem?_append_left (by rw [h.len]; exact hlt)
    have hpubF : s.pub s.enqPos = false := by
      cases hx : s.pub s.enqPos with
      | false => rfl
      | true => have := h.pubLt _ hx; omega
    refine { len := ?_, relLt := h.relLt, pubLt := ?_, deqPub := h.deqPub, wlt := ?_, wuniq := ?_,
             wex := ?_, rlt := ?_, runiq := ?_, rex := ?_, room := ?_, claimed := ?_, full := ?_,
             empty := ?_, fresh := ?_, monoPub := h.monoPub, gotOk := ?_,
             gotNodup := h.gotNodup, pcs := ?_ }
    · simp [h.len]
    · intro p hpb; have := h.pubLt p hpb; show p < s.enqPos + 1; omega
    · intro u p hu
      by_cases hut : u = t
      · subst hut
        simp only [St.goto, setf_self, Pc.enqAt, Option.some.injEq] at hu
        subst hu
        exact ⟨Nat.lt_succ_self _, hpubF⟩
      · simp only [St.goto, hE u hut] at hu
        have := h.wlt u p hu
        exact ⟨Nat.lt_succ_of_lt this.1, this.2⟩
    · intro u v p hu hv
      have key : ∀ w, ((setf s.pc t (.enqWrite x s.enqPos)) w).enqAt = some p →
          p = s.enqPos → w = t := by
        intro w hw hpe
        apply Classical.byContradiction
        intro hwt
        rw [hE w hwt] at hw
        have := h.wlt w p hw; omega
      by_cases hpe : p = s.enqPos
      · rw [key u hu hpe, key v hv hpe]
      · have h1 : ∀ w, ((setf s.pc t (.enqWrite x s.enqPos)) w).enqAt = some p →
            (s.pc w).enqAt = some p := by
          intro w hw
          by_cases hwt : w = t
          · subst hwt; simp only [setf_self, Pc.enqAt, Option.some.injEq] at hw
            exact absurd hw.symm hpe
          · rwa [hE w hwt] at hw
        exact h.wuniq u v p (h1 u hu) (h1 v hv)
    · intro p hlt hpb
      by_cases hpe : p = s.enqPos
      · exact ⟨t, by simp [St.goto, Pc.enqAt, hpe]⟩
      · have hlt' : p < s.enqPos := by
          have : p < s.enqPos + 1 := hlt
          omega
        obtain ⟨u, hu⟩ := h.wex p hlt' hpb
        have hut : u ≠ t := by
          rintro rfl; rw [hpc] at hu; cases hu
        exact ⟨u, by simp only [St.goto, hE u hut]; exact hu⟩
    · intro u p hu
      by_cases hut : u = t
      · subst hut; simp [St.goto, Pc.deqAt] at hu
      · simp only [St.goto, hE u hut] at hu
        exact h.rlt u p hu
    · intro u v p hu hv
      by_cases hut : u = t
      · subst hut; simp [St.goto, Pc.deqAt] at hu
      · by_cases hvt : v = t
        · subst hvt; simp [St.goto, Pc.deqAt] at hv
        · simp only [St.goto, hE u hut] at hu
          simp only [St.goto, hE v hvt] at hv
          exact h.runiq u v p hu hv
    · intro p hlt hr
      obtain ⟨u, hu⟩ := h.rex p hlt hr
      have hut : u ≠ t := by
        rintro rfl; rw [hpc] at hu; cases hu
      exact ⟨u, by simp only [St.goto, hE u hut]; exact hu⟩
    · intro p hge hlt
      have hlt' : p < s.enqPos + 1 := hlt
      by_cases hpe : p = s.enqPos
      · subst hpe; exact hp.2 rfl hge
      · exact h.room p hge (by omega)
    · intro p hlt hpb
      have hlt' : p < s.enqPos + 1 := hlt
      by_cases hpe : p = s.enqPos
      · subst hpe; exact hready
      · exact h.claimed p (by omega) hpb
    · intro p hpb hr
      have := h.full p hpb hr
      refine ⟨this.1, ?_⟩
      show s.data (p % n) = (s.log ++ [x])[p]?
      rw [hlogO p (h.pubLt p hpb)]; exact this.2
    · intro p hr hle
      have hle' : s.enqPos + 1 ≤ p + n := hle
      exact h.empty p hr (by omega)
    · intro p hlt hle
      have hle' : s.enqPos + 1 ≤ p := hle
      exact h.fresh p hlt (by omega)
    · intro p v hm
      obtain ⟨h1, h2⟩ := h.gotOk p v hm
      refine ⟨h1, ?_⟩
      show (s.log ++ [x])[p]? = v
      have := h.relLt p h1
      have := h.deqLe
      rw [hlogO p (by omega)]; exact h2
    · intro u
      by_cases hut : u = t
      · subst hut
        simp only [St.goto, setf_self, PcOk]
        have := h.len
        rw [List.getElem?_append_right (by omega)]
        simp [this]
      · simp only [St.goto, hE u hut]
        have hu := hpcs u
        generalize hq : s.pc u = q at hu
        cases q <;> simp only [PcOk] at hu ⊢
        case enqSeq => omega
        case enqCas y pos =>
          refine ⟨by omega, ?_⟩
          intro h1; exfalso; omega
        case enqWrite y pos => exact hlog _ _ hu
        case enqPub y pos => exact ⟨hlog _ _ hu.1, hu.2⟩
        case deqSeq => exact hu
        case deqCas => exact hu
        case deqPub pos v =>
          have h1 := h.rlt u pos (by rw [hq]; rfl)
          have h2 := h.deqLe
          rw [hlogO pos (by omega)]; exact hu
  | @enqWrite t x pos hpc =>
    have hp := hpcs t; rw [hpc] at hp
    have hw := h.wlt t pos (by rw [hpc]; rfl)
    have hcl := h.claimed pos hw.1 hw.2
    rw [hidx]
    have hE : ∀ u, ((setf s.pc t (Pc.enqPub x pos)) u).enqAt = (s.pc u).enqAt := by
      intro u; by_cases hu : u = t
      · subst hu; simp [hpc, Pc.enqAt]
      · rw [setf_ne _ _ hu]
    have hD : ∀ u, ((setf s.pc t (Pc.enqPub x pos)) u).deqAt = (s.pc u).deqAt := by
      intro u; by_cases hu : u = t
      · subst hu; simp [hpc, Pc.deqAt]
      · rw [setf_ne _ _ hu]
    refine { len := h.len, relLt := h.relLt, pubLt := h.pubLt, deqPub := h.deqPub, wlt := ?_,
             wuniq := ?_, wex := ?_, rlt := ?_, runiq := ?_, rex := ?_, room := h.room,
             claimed := h.claimed, full := ?_, empty := h.empty, fresh := h.fresh,
             monoPub := h.monoPub, gotOk := h.gotOk, gotNodup := h.gotNodup, pcs := ?_ }
    · intro u q; simp only [St.goto, hE]; exact h.wlt u q
    · intro u v q; simp only [St.goto, hE]; exact h.wuniq u v q
    · intro q h1 h2; simp only [St.goto, hE]; exact h.wex q h1 h2
    · intro u q; simp only [St.goto, hD]; exact h.rlt u q
    · intro u v q; simp only [St.goto, hD]; exact h.runiq u v q
    · intro q h1 h2; simp only [St.goto, hD]; exact h.rex q h1 h2
    · intro p hpb hr
      obtain ⟨h1, h2⟩ := h.full p hpb hr
      refine ⟨h1, ?_⟩
      show setf s.data (pos % n) (some x) (p % n) = s.log[p]?
      rw [setf_ne _ _ ?_]
      · exact h2
      · intro hm
        rw [hm, hcl] at h1
        exact mod_succ_ne hn hm.symm h1
    · intro u
      by_cases hut : u = t
      · subst hut
        simp only [St.goto, setf_self, PcOk, and_true]
        exact hp
      · simp only [St.goto, setf_ne s.pc _ hut]
        have hu := hpcs u
        generalize hq : s.pc u = q at hu
        cases q <;> simp only [PcOk] at hu ⊢ <;> try exact hu
        case enqPub y p =>
          refine ⟨hu.1, ?_⟩
          rw [setf_ne _ _ ?_]
          · exact hu.2
          · intro hm
            have hw' := h.wlt u p (by rw [hq]; rfl)
            have hcl' := h.claimed p hw'.1 hw'.2
            rw [hm, hcl] at hcl'
            subst hcl'
            exact hut (h.wuniq u t pos (by rw [hq]; rfl) (by rw [hpc]; rfl))
  | @enqPub t x pos hpc =>
    have hp := hpcs t; rw [hpc] at hp
    have hw := h.wlt t pos (by rw [hpc]; rfl)
    have hcl := h.claimed pos hw.1 hw.2
    have hrel : s.rel pos = false := by
      cases hx : s.rel pos with
      | false => rfl
      | true =>
        have h1 := h.deqPub _ (h.relLt _ hx); rw [hw.2] at h1; cases h1
    rw [hidx]
    have hE : ∀ u, u ≠ t → ((setf s.pc t (Pc.idle)) u).enqAt = (s.pc u).enqAt := by
      intro u hu; rw [setf_ne _ _ hu]
    have hD : ∀ u, ((setf s.pc t (Pc.idle)) u).deqAt = (s.pc u).deqAt := by
      intro u; by_cases hu : u = t
      · subst hu; simp [hpc, Pc.deqAt]
      · rw [setf_ne _ _ hu]
    have hpubO : ∀ p, p ≠ pos → setf s.pub pos true p = s.pub p := fun p hne => setf_ne _ _ hne
    have hpubM : ∀ p, s.pub p = true → setf s.pub pos true p = true := by
      intro p hpb; by_cases hpe : p = pos
      · subst hpe; simp
      · rw [hpubO p hpe]; exact hpb
    refine { len := h.len, relLt := h.relLt, pubLt := ?_, deqPub := ?_, wlt := ?_,
             wuniq := ?_, wex := ?_, rlt := ?_, runiq := ?_, rex := ?_, room := h.room,
             claimed := ?_, full := ?_, empty := ?_, fresh := ?_,
             monoPub := ?_, gotOk := h.gotOk, gotNodup := h.gotNodup, pcs := ?_ }
    · intro p hpb
      by_cases hpe : p = pos
      · subst hpe; exact hw.1
      · exact h.pubLt p (by rw [← hpubO p hpe]; exact hpb)
    · intro p hlt; exact hpubM p (h.deqPub p hlt)
    · intro u p hu
      by_cases hut : u = t
      · subst hut; simp [St.goto, Pc.enqAt] at hu
      · simp only [St.goto, hE u hut] at hu
        have h1 := h.wlt u p hu
        refine ⟨h1.1, ?_⟩
        show setf s.pub pos true p = false
        rw [hpubO p ?_]
        · exact h1.2
        · rintro rfl
          exact hut (h.wuniq u t p hu (by rw [hpc]; rfl))
    · intro u v p hu hv
      by_cases hut : u = t
      · subst hut; simp [St.goto, Pc.enqAt] at hu
      · by_cases hvt : v = t
        · subst hvt; simp [St.goto, Pc.enqAt] at hv
        · simp only [St.goto, hE u hut] at hu
          simp only [St.goto, hE v hvt] at hv
          exact h.wuniq u v p hu hv
    · intro p hlt hpb
      have hpe : p ≠ pos := by
        rintro rfl
        simp at hpb
      have hpb' : s.pub p = false := by rw [← hpubO p hpe]; exact hpb
      obtain ⟨u, hu⟩ := h.wex p hlt hpb'
      have hut : u ≠ t := by
        rintro rfl; rw [hpc] at hu; cases hu; exact hpe rfl
      exact ⟨u, by simp only [St.goto, hE u hut]; exact hu⟩
    · intro u q; simp only [St.goto, hD]; exact h.rlt u q
    · intro u v q; simp only [St.goto, hD]; exact h.runiq u v q
    · intro q h1 h2; simp only [St.goto, hD]; exact h.rex q h1 h2
    · intro p hlt hpb
      have hpe : p ≠ pos := by
        rintro rfl
        simp at hpb
      have hpb' : s.pub p = false := by rw [← hpubO p hpe]; exact hpb
      have h1 := h.claimed p hlt hpb'
      show setf s.seq (pos % n) (pos + 1) (p % n) = p
      rw [setf_ne _ _ ?_]
      · exact h1
      · intro hm; rw [hm, hcl] at h1; exact hpe h1.symm
    · intro p hpb hr
      by_cases hpe : p = pos
      · subst hpe
        exact ⟨by simp, show s.data (p % n) = s.log[p]? by rw [hp.1]; exact hp.2⟩
      · have hpb' : s.pub p = true := by rw [← hpubO p hpe]; exact hpb
        have h1 := h.full p hpb' hr
        refine ⟨?_, h1.2⟩
        show setf s.seq (pos % n) (pos + 1) (p % n) = p + 1
        rw [setf_ne _ _ ?_]
        · exact h1.1
        · intro hm
          have h2 := h1.1
          rw [hm, hcl] at h2
          exact mod_succ_ne hn hm.symm h2
    · intro p hr hle
      have h1 := h.empty p hr hle
      show setf s.seq (pos % n) (pos + 1) (p % n) = p + n
      rw [setf_ne _ _ ?_]
      · exact h1
      · intro hm
        rw [hm, hcl] at h1
        have hle' : s.enqPos ≤ p + n := hle
        have := hw.1
        omega
    · intro p hlt hle
      have hle' : s.enqPos ≤ p := hle
      have h1 := h.fresh p hlt hle
      show setf s.seq (pos % n) (pos + 1) p = p
      rw [setf_ne _ _ ?_]
      · exact h1
      · intro hm
        have := hw.1
        rw [Nat.mod_eq_of_lt (by omega)] at hm
        omega
    · intro p hpb
      show p + 1 ≤ setf s.seq (pos % n) (pos + 1) (p % n)
      by_cases hpe : p = pos
      · subst hpe; simp
      · have hpb' : s.pub p = true := by rw [← hpubO p hpe]; exact hpb
        have h1 := h.monoPub p hpb'
        by_cases hm : p % n = pos % n
        · rw [hm, setf_self]; rw [hm, hcl] at h1; omega
        · rw [setf_ne _ _ hm]; exact h1
    · intro u
      by_cases hut : u = t
      · subst hut; simp only [St.goto, setf_self, PcOk]
      · simp only [St.goto, setf_ne s.pc _ hut]
        have hu := hpcs u
        generalize hq : s.pc u = q at hu
        cases q <;> simp only [PcOk] at hu ⊢ <;> try exact hu
        case deqCas p => exact ⟨hu.1, hpubM p hu.2⟩
  | @deqCasOk t pos hpc heq =>
    subst heq
    have hp := hpcs t; rw [hpc] at hp
    have hE : ∀ u, ((setf s.pc t (Pc.deqRead s.deqPos)) u).enqAt = (s.pc u).enqAt := by
      intro u; by_cases hu : u = t
      · subst hu; simp [hpc, Pc.enqAt]
      · rw [setf_ne _ _ hu]
    have hD : ∀ u, u ≠ t → setf s.pc t (.deqRead s.deqPos) u = s.pc u :=
      fun u hu => setf_ne _ _ hu
    have hrelF : s.rel s.deqPos = false := by
      cases hx : s.rel s.deqPos with
      | false => rfl
      | true => have := h.relLt _ hx; omega
    refine { len := h.len, relLt := ?_, pubLt := h.pubLt, deqPub := ?_, wlt := ?_,
             wuniq := ?_, wex := ?_, rlt := ?_, runiq := ?_, rex := ?_, room := h.room,
             claimed := h.claimed, full := h.full, empty := h.empty, fresh := h.fresh,
             monoPub := h.monoPub, gotOk := h.gotOk, gotNodup := h.gotNodup, pcs := ?_ }
    · intro p hr; exact Nat.lt_succ_of_lt (h.relLt p hr)
    · intro p hlt
      have hlt' : p < s.deqPos + 1 := hlt
      by_cases hpe : p = s.deqPos
      · subst hpe; exact hp.2
      · exact h.deqPub p (by omega)
    · intro u q; simp only [St.goto, hE]; exact h.wlt u q
    · intro u v q; simp only [St.goto, hE]; exact h.wuniq u v q
    · intro q h1 h2; simp only [St.goto, hE]; exact h.wex q h1 h2
    · intro u p hu
      by_cases hut : u = t
      · subst hut
        simp only [St.goto, setf_self, Pc.deqAt, Option.some.injEq] at hu
        subst hu
        exact ⟨Nat.lt_succ_self _, hrelF⟩
      · simp only [St.goto, hD u hut] at hu
        have := h.rlt u p hu
        exact ⟨Nat.lt_succ_of_lt this.1, this.2⟩
    · intro u v p hu hv
      have key : ∀ w, ((setf s.pc t (.deqRead s.deqPos)) w).deqAt = some p →
          p = s.deqPos → w = t := by
        intro w hw hpe
        apply Classical.byContradiction
        intro hwt
        rw [hD w hwt] at hw
        have := h.rlt w p hw; omega
      by_cases hpe : p = s.deqPos
      · rw [key u hu hpe, key v hv hpe]
      · have h1 : ∀ w, ((setf s.pc t (.deqRead s.deqPos)) w).deqAt = some p →
            (s.pc w).deqAt = some p := by
          intro w hw
          by_cases hwt : w = t
          · subst hwt; simp only [setf_self, Pc.deqAt, Option.some.injEq] at hw
            exact absurd hw.symm hpe
          · rwa [hD w hwt] at hw
        exact h.runiq u v p (h1 u hu) (h1 v hv)
    · intro p hlt hr
      have hlt' : p < s.deqPos + 1 := hlt
      by_cases hpe : p = s.deqPos
      · exact ⟨t, by simp [St.goto, Pc.deqAt, hpe]⟩
      · obtain ⟨u, hu⟩ := h.rex p (by omega) hr
        have hut : u ≠ t := by
          rintro rfl; rw [hpc] at hu; cases hu
        exact ⟨u, by simp only [St.goto, hD u hut]; exact hu⟩
    · intro u
      by_cases hut : u = t
      · subst hut; simp only [St.goto, setf_self, PcOk]
      · simp only [St.goto, hD u hut]
        have hu := hpcs u
        generalize hq : s.pc u = q at hu
        cases q <;> simp only [PcOk] at hu ⊢ <;> try exact hu
        case deqSeq p => omega
        case deqCas p => exact ⟨by omega, hu.2⟩
  | @deqPub t pos v hpc =>
    have hp := hpcs t; rw [hpc] at hp
    have hr0 := h.rlt t pos (by rw [hpc]; rfl)
    have hpb0 := h.deqPub pos hr0.1
    have hfull := h.full pos hpb0 hr0.2
    have hseq : pos + (n - 1) + 1 = pos + n := by omega
    have hde := h.deqLe
    rw [hidx, hseq]
    have hE : ∀ u, ((setf s.pc t (Pc.idle)) u).enqAt = (s.pc u).enqAt := by
      intro u; by_cases hu : u = t
      · subst hu; simp [hpc, Pc.enqAt]
      · rw [setf_ne _ _ hu]
    have hD : ∀ u, u ≠ t → setf s.pc t .idle u = s.pc u :=
      fun u hu => setf_ne _ _ hu
    have hrelO : ∀ p, p ≠ pos → setf s.rel pos true p = s.rel p := fun p hne => setf_ne _ _ hne
    have hrelM : ∀ p, s.rel p = true → setf s.rel pos true p = true := by
      intro p hpb; by_cases hpe : p = pos
      · subst hpe; simp
      · rw [hrelO p hpe]; exact hpb
    refine { len := h.len, relLt := ?_, pubLt := h.pubLt, deqPub := h.deqPub, wlt := ?_,
             wuniq := ?_, wex := ?_, rlt := ?_, runiq := ?_, rex := ?_, room := ?_,
             claimed := ?_, full := ?_, empty := ?_, fresh := ?_,
             monoPub := ?_, gotOk := ?_, gotNodup := ?_, pcs := ?_ }
    · intro p hr
      by_cases hpe : p = pos
      · subst hpe; exact hr0.1
      · exact h.relLt p (by rw [← hrelO p hpe]; exact hr)
    · intro u q; simp only [St.goto, hE]; exact h.wlt u q
    · intro u v q; simp only [St.goto, hE]; exact h.wuniq u v q
    · intro q h1 h2; simp only [St.goto, hE]; exact h.wex q h1 h2
    · intro u p hu
      by_cases hut : u = t
      · subst hut; simp [St.goto, Pc.deqAt] at hu
      · simp only [St.goto, hD u hut] at hu
        have h1 := h.rlt u p hu
        refine ⟨h1.1, ?_⟩
        show setf s.rel pos true p = false
        rw [hrelO p ?_]
        · exact h1.2
        · rintro rfl
          exact hut (h.runiq u t p hu (by rw [hpc]; rfl))
    · intro u v p hu hv
      by_cases hut : u = t
      · subst hut; simp [St.goto, Pc.deqAt] at hu
      · by_cases hvt : v = t
        · subst hvt; simp [St.goto, Pc.deqAt] at hv
        · simp only [St.goto, hD u hut] at hu
          simp only [St.goto, hD v hvt] at hv
          exact h.runiq u v p hu hv
    · intro p hlt hr
      have hpe : p ≠ pos := by
        rintro rfl
        simp at hr
      have hr' : s.rel p = false := by rw [← hrelO p hpe]; exact hr
      obtain ⟨u, hu⟩ := h.rex p hlt hr'
      have hut : u ≠ t := by
        rintro rfl; rw [hpc] at hu; cases hu; exact hpe rfl
      exact ⟨u, by simp only [St.goto, hD u hut]; exact hu⟩
    · intro p hge hlt
      exact hrelM _ (h.room p hge hlt)
    · intro p hlt hpb
      have h1 := h.claimed p hlt hpb
      show setf s.seq (pos % n) (pos + n) (p % n) = p
      rw [setf_ne _ _ ?_]
      · exact h1
      · intro hm
        rw [hm, hfull.1] at h1
        exact mod_succ_ne hn hm h1.symm
    · intro p hpb hr
      have hpe : p ≠ pos := by
        rintro rfl
        simp at hr
      have hr' : s.rel p = false := by rw [← hrelO p hpe]; exact hr
      have h1 := h.full p hpb hr'
      refine ⟨?_, h1.2⟩
      show setf s.seq (pos % n) (pos + n) (p % n) = p + 1
      rw [setf_ne _ _ ?_]
      · exact h1.1
      · intro hm
        have h2 := h1.1
        rw [hm, hfull.1] at h2
        omega
    · intro p hr hle
      show setf s.seq (pos % n) (pos + n) (p % n) = p + n
      by_cases hpe : p = pos
      · subst hpe; simp
      · have hr' : s.rel p = true := by rw [← hrelO p hpe]; exact hr
        have h1 := h.empty p hr' hle
        rw [setf_ne _ _ ?_]
        · exact h1
        · intro hm
          rw [hm, hfull.1] at h1
          have : (p + n) % n = pos % n := by rw [Nat.add_mod_right]; exact hm
          exact mod_succ_ne hn this h1.symm
    · intro p hlt hle
      have hle' : s.enqPos ≤ p := hle
      have h1 := h.fresh p hlt hle
      show setf s.seq (pos % n) (pos + n) p = p
      rw [setf_ne _ _ ?_]
      · exact h1
      · intro hm
        rw [Nat.mod_eq_of_lt (by omega)] at hm
        omega
    · intro p hpb
      have h1 := h.monoPub p hpb
      show p + 1 ≤ setf s.seq (pos % n) (pos + n) (p % n)
      by_cases hm : p % n = pos % n
      · rw [hm, setf_self]; rw [hm, hfull.1] at h1; omega
      · rw [setf_ne _ _ hm]; exact h1
    · intro p w hm
      rcases List.mem_append.1 hm with hm | hm
      · have h1 := h.gotOk p w hm
        exact ⟨hrelM p h1.1, h1.2⟩
      · rw [List.mem_singleton] at hm
        cases hm
        exact ⟨by simp, hp⟩
    · simp only [List.map_append, List.map_cons, List.map_nil]
      rw [List.nodup_append]
      refine ⟨h.gotNodup, by simp, ?_⟩
      intro a ha b hb
      rw [List.mem_singleton] at hb
      subst hb
      rintro rfl
      obtain ⟨⟨p, w⟩, hm, hpw⟩ := List.mem_map.1 ha
      simp only at hpw
      subst hpw
      have := (h.gotOk p w hm).1
      rw [hr0.2] at this; cases this
    · intro u
      by_cases hut : u = t
      · subst hut; simp only [St.goto, setf_self, PcOk]
      · simp only [St.goto, hD u hut]
        have hu := hpcs u
        generalize hq : s.pc u = q at hu
        cases q <;> simp only [PcOk] at hu ⊢ <;> try exact hu
        case enqCas y p => exact ⟨hu.1, fun h1 h2 => hrelM _ (hu.2 h1 h2)⟩

theorem inv_reachable {k : Nat} (hk : 1 ≤ k) {s : St α} (h : Reachable (2 ^ k) s) :
    Inv (2 ^ k) s := by
  induction h with
  | init => exact inv_init _
  | step _ hst ih => exact inv_step hk ih hst

end Phosphor.Mpmc
