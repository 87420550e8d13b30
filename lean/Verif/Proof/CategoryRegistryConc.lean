import Verif.Model.CategoryRegistryConc
import Verif.Proof.CategoryRegistry
namespace Phosphor.RegConc

/-- A finished or about-to-finish lookup `(n, r)`: either the cell of the group, or the
overflow cell of a full registry without that group. -/
def ResOk (s : St) (n : Str) (r : Nat) : Prop :=
  (r < s.count ∧ s.groups r = n) ∨ (r = 1 ∧ s.count = 250 ∧ ∀ j, j < 250 → s.groups j ≠ n)

def CellOk (s : St) (i : Nat) : Prop :=
  s.statuses i = calculateEnabled (s.groups i) s.enabled s.disabled

def AllOk (s : St) : Prop := ∀ i, i < s.count → CellOk s i

/-- What is known about a thread at each program counter. -/
def PcOk (s : St) (t : Nat) : Pc → Prop
  | .idle => True
  | .scan1 n c i => '\x00' ∉ n ∧ i ≤ c ∧ c ≤ s.count
  | .wantLock n => '\x00' ∉ n
  | .locked n => '\x00' ∉ n ∧ s.mutex = some t ∧ AllOk s
  | .scan2 n c i => '\x00' ∉ n ∧ s.mutex = some t ∧ AllOk s ∧ c = s.count ∧ i ≤ c ∧
      ∀ j, j < i → s.groups j ≠ n
  | .writeGroup n c => '\x00' ∉ n ∧ s.mutex = some t ∧ AllOk s ∧ c = s.count ∧ c < 250 ∧
      ∀ j, j < c → s.groups j ≠ n
  | .writeStatus n c => '\x00' ∉ n ∧ s.mutex = some t ∧ AllOk s ∧ c = s.count ∧ c < 250 ∧
      (∀ j, j < c → s.groups j ≠ n) ∧ s.groups c = n
  | .bump n c => '\x00' ∉ n ∧ s.mutex = some t ∧ AllOk s ∧ c = s.count ∧ c < 250 ∧
      (∀ j, j < c → s.groups j ≠ n) ∧ s.groups c = n ∧ CellOk s c
  | .unlockRet n r => s.mutex = some t ∧ AllOk s ∧ ResOk s n r
  | .uWant _ => True
  | .uEn _ => s.mutex = some t
  | .uDis u => s.mutex = some t ∧ s.enabled = u.en
  | .uLoad u => s.mutex = some t ∧ s.enabled = u.en ∧ s.disabled = u.dis
  | .uLoop u c i => s.mutex = some t ∧ s.enabled = u.en ∧ s.disabled = u.dis ∧ c = s.count ∧
      i ≤ c ∧ ∀ j, j < i → CellOk s j

structure Inv (s : St) : Prop where
  clow : 3 ≤ s.count
  chigh : s.count ≤ 250
  limit : s.groups 1 = "category limit reached".toList
  inj : ∀ i j, i < s.count → j < s.count → s.groups i = s.groups j → i = j
  nul : ∀ i, i < s.count → '\x00' ∉ s.groups i
  free : s.mutex = none → AllOk s
  res : ∀ p ∈ s.results, ResOk s p.1 p.2
  pcs : ∀ t, PcOk s t (s.pc t)

theorem init_groups (i : Nat) (h : i < 3) : St.init.groups i =
    ["default".toList, "category limit reached".toList, "__metadata".toList].getD i [] := by
  simp only [St.init, List.getD_eq_getElem?_getD]
  rw [init_groups_lt h]

theorem inv_init : Inv St.init where
  clow := Nat.le_refl 3
  chigh := by show 3 ≤ 250; omega
  limit := by rw [init_groups 1 (by omega)]; rfl
  inj := by
    intro i j hi hj h
    change i < 3 at hi
    change j < 3 at hj
    rw [init_groups i hi, init_groups j hj] at h
    match i, hi, j, hj with
    | 0, _, 0, _ | 1, _, 1, _ | 2, _, 2, _ => rfl
    | 0, _, 1, _ | 0, _, 2, _ | 1, _, 0, _ | 1, _, 2, _ | 2, _, 0, _ | 2, _, 1, _ =>
      revert h; decide
  nul := by
    intro i hi
    change i < 3 at hi
    rw [init_groups i hi]
    match i, hi with
    | 0, _ | 1, _ | 2, _ => decide
  free := by
    intro _ i _
    show false = calculateEnabled _ [] []
    rw [calculateEnabled_nil]
  res := by intro p hp; cases hp
  pcs := fun _ => trivial

/-- Transfer of `PcOk` for a thread other than the one stepping, when the shared state is
not touched. -/
theorem pcOk_congr {s s' : St} {t : Nat} {p : Pc} (h : PcOk s t p)
    (hg : s'.groups = s.groups) (hs : s'.statuses = s.statuses) (hc : s'.count = s.count)
    (he : s'.enabled = s.enabled) (hd : s'.disabled = s.disabled) (hm : s'.mutex = s.mutex) :
    PcOk s' t p := by
  cases p <;> simp only [PcOk, AllOk, CellOk, ResOk, hg, hs, hc, he, hd, hm] at h ⊢ <;> exact h

/-- Transfer for another thread when the mutex is owned by somebody else before and after:
such a thread is at a program counter that does not depend on the protected state. -/
theorem pcOk_other {s s' : St} {t : Nat} {p : Pc} (h : PcOk s t p)
    (hm : s.mutex ≠ some t) (hc : s.count ≤ s'.count) : PcOk s' t p := by
  cases p <;> simp only [PcOk] at h ⊢
  case scan1 => exact ⟨h.1, h.2.1, by omega⟩
  case wantLock => exact h
  case locked => exact absurd h.2.1 hm
  case scan2 => exact absurd h.2.1 hm
  case writeGroup => exact absurd h.2.1 hm
  case writeStatus => exact absurd h.2.1 hm
  case bump => exact absurd h.2.1 hm
  case unlockRet => exact absurd h.1 hm
  case uEn => exact absurd h hm
  case uDis => exact absurd h.1 hm
  case uLoad => exact absurd h.1 hm
  case uLoop => exact absurd h.1 hm

/-- A step of `t` that only moves its program counter (and perhaps records a result). -/
theorem inv_local {s s' : St} {t : Nat} {p : Pc} (h : Inv s)
    (hg : s'.groups = s.groups) (hs : s'.statuses = s.statuses) (hc : s'.count = s.count)
    (he : s'.enabled = s.enabled) (hd : s'.disabled = s.disabled) (hm : s'.mutex = s.mutex)
    (hpc : s'.pc = upd s.pc t p) (hp : PcOk s t p)
    (hr : ∀ q ∈ s'.results, q ∈ s.results ∨ ResOk s q.1 q.2) : Inv s' where
  clow := by rw [hc]; exact h.clow
  chigh := by rw [hc]; exact h.chigh
  limit := by rw [hg]; exact h.limit
  inj := by rw [hc, hg]; exact h.inj
  nul := by rw [hc, hg]; exact h.nul
  free := by
    rw [hm]; intro h0
    have := h.free h0
    simpa only [AllOk, CellOk, hg, hs, hc, he, hd] using this
  res := by
    intro q hq
    have : ResOk s q.1 q.2 := by
      rcases hr q hq with h1 | h1
      · exact h.res q h1
      · exact h1
    simpa only [ResOk, hg, hc] using this
  pcs := by
    intro t'
    rw [hpc]
    by_cases ht : t' = t
    · subst ht; rw [upd_self]; exact pcOk_congr hp hg hs hc he hd hm
    · rw [upd_ne _ _ ht]; exact pcOk_congr (h.pcs t') hg hs hc he hd hm

/-- A step of `t` while it owns the mutex before, which does not touch groups and count. -/
theorem inv_owner {s s' : St} {t : Nat} {p : Pc} (h : Inv s) (hown : s.mutex = some t)
    (hg : s'.groups = s.groups) (hc : s'.count = s.count)
    (hfree : s'.mutex = none → AllOk s')
    (hpc : s'.pc = upd s.pc t p) (hp : PcOk s' t p)
    (hr : ∀ q ∈ s'.results, q ∈ s.results ∨ ResOk s q.1 q.2) : Inv s' where
  clow := by rw [hc]; exact h.clow
  chigh := by rw [hc]; exact h.chigh
  limit := by rw [hg]; exact h.limit
  inj := by rw [hc, hg]; exact h.inj
  nul := by rw [hc, hg]; exact h.nul
  free := hfree
  res := by
    intro q hq
    have : ResOk s q.1 q.2 := by
      rcases hr q hq with h1 | h1
      · exact h.res q h1
      · exact h1
    simpa only [ResOk, hg, hc] using this
  pcs := by
    intro t'
    rw [hpc]
    by_cases ht : t' = t
    · subst ht; rw [upd_self]; exact hp
    · rw [upd_ne _ _ ht]
      refine pcOk_other (h.pcs t') ?_ (by omega)
      rw [hown]; simpa using fun e => ht e.symm

theorem inv_step {s s' : St} (h : Inv s) (st : Step s s') : Inv s' := by
  have hpcs := h.pcs
  cases st with
  | @call t n hpc hn =>
    exact inv_local h rfl rfl rfl rfl rfl rfl rfl ⟨hn, Nat.zero_le _, Nat.le_refl _⟩
      (fun q hq => Or.inl hq)
  | @scan1End t n c i hpc hi =>
    have hp := hpcs t; rw [hpc] at hp
    exact inv_local h rfl rfl rfl rfl rfl rfl rfl hp.1 (fun q hq => Or.inl hq)
  | @scan1Hit t n c i hpc hi hg =>
    have hp := hpcs t; rw [hpc] at hp
    refine inv_local h rfl rfl rfl rfl rfl rfl rfl trivial (fun q hq => ?_)
    rcases List.mem_cons.1 hq with rfl | hq
    · exact Or.inr (Or.inl ⟨by have := hp.2.2; simp only; omega, hg⟩)
    · exact Or.inl hq
  | @scan1Miss t n c i hpc hi hg =>
    have hp := hpcs t; rw [hpc] at hp
    exact inv_local h rfl rfl rfl rfl rfl rfl rfl ⟨hp.1, hi, hp.2.2⟩ (fun q hq => Or.inl hq)
  | @lock t n hpc hm =>
    have hp := hpcs t; rw [hpc] at hp
    have hall := h.free hm
    exact {
      clow := h.clow, chigh := h.chigh, limit := h.limit, inj := h.inj, nul := h.nul
      free := fun h0 => by cases h0
      res := h.res
      pcs := by
        intro t'
        by_cases ht : t' = t
        · subst ht
          simp only [St.goto, upd_self]
          exact ⟨hp, rfl, hall⟩
        · simp only [St.goto]
          rw [upd_ne _ _ ht]
          exact pcOk_other (h.pcs t') (by rw [hm]; simp) (Nat.le_refl _) }
  | @load2 t n hpc =>
    have hp := hpcs t; rw [hpc] at hp
    exact inv_local h rfl rfl rfl rfl rfl rfl rfl
      ⟨hp.1, hp.2.1, hp.2.2, rfl, Nat.zero_le _, by omega⟩ (fun q hq => Or.inl hq)
  | @scan2Hit t n c i hpc hi hg =>
    have hp := hpcs t; rw [hpc] at hp
    obtain ⟨h1, h2, h3, h4, h5, h6⟩ := hp
    exact inv_local h rfl rfl rfl rfl rfl rfl rfl
      ⟨h2, h3, Or.inl ⟨by omega, hg⟩⟩ (fun q hq => Or.inl hq)
  | @scan2Miss t n c i hpc hi hg =>
    have hp := hpcs t; rw [hpc] at hp
    obtain ⟨h1, h2, h3, h4, h5, h6⟩ := hp
    refine inv_local h rfl rfl rfl rfl rfl rfl rfl
      ⟨h1, h2, h3, h4, hi, ?_⟩ (fun q hq => Or.inl hq)
    intro j hj
    by_cases hji : j = i
    · subst hji; exact hg
    · exact h6 j (by omega)
  | @room t n c i hpc hi hc =>
    have hp := hpcs t; rw [hpc] at hp
    obtain ⟨h1, h2, h3, h4, h5, h6⟩ := hp
    exact inv_local h rfl rfl rfl rfl rfl rfl rfl
      ⟨h1, h2, h3, h4, hc, fun j hj => h6 j (by omega)⟩ (fun q hq => Or.inl hq)
  | @full t n c i hpc hi hc =>
    have hp := hpcs t; rw [hpc] at hp
    obtain ⟨h1, h2, h3, h4, h5, h6⟩ := hp
    have := h.chigh
    simp only [registrySize] at hc
    exact inv_local h rfl rfl rfl rfl rfl rfl rfl
      ⟨h2, h3, Or.inr ⟨rfl, by omega, fun j hj => h6 j (by omega)⟩⟩ (fun q hq => Or.inl hq)
  | @writeGroup t n c hpc =>
    have hp := hpcs t; rw [hpc] at hp
    obtain ⟨h1, h2, h3, h4, h5, h6⟩ := hp
    have hlow := h.clow
    have hsame : ∀ j, j < s.count → upd s.groups c n j = s.groups j :=
      fun j hj => upd_ne _ _ (by omega)
    exact {
      clow := h.clow, chigh := h.chigh
      limit := by simp only; rw [hsame 1 (by omega)]; exact h.limit
      inj := by
        intro i j hi hj
        simp only [St.goto] at hi hj ⊢
        rw [hsame i hi, hsame j hj]; exact h.inj i j hi hj
      nul := by
        intro i hi
        simp only [St.goto] at hi ⊢
        rw [hsame i hi]; exact h.nul i hi
      free := by
        intro h0
        simp only [St.goto] at h0
        rw [h2] at h0; cases h0
      res := by
        intro q hq
        rcases h.res q hq with ⟨h7, h8⟩ | ⟨h7, h8, h9⟩
        · left; simp only [St.goto]; exact ⟨h7, by rw [hsame _ h7]; exact h8⟩
        · omega
      pcs := by
        intro t'
        by_cases ht : t' = t
        · subst ht
          simp only [St.goto, upd_self]
          refine ⟨h1, h2, ?_, h4, h5, ?_, by simp⟩
          · intro i hi
            simp only [CellOk]
            simp only at hi
            rw [hsame i hi]; exact h3 i hi
          · intro j hj
            simp only
            rw [hsame j (by omega)]; exact h6 j hj
        · simp only [St.goto]
          rw [upd_ne _ _ ht]
          refine pcOk_other (h.pcs t') ?_ (Nat.le_refl _)
          rw [h2]; simpa using fun e => ht e.symm }
  | @writeStatus t n c hpc =>
    have hp := hpcs t; rw [hpc] at hp
    obtain ⟨h1, h2, h3, h4, h5, h6, h7⟩ := hp
    refine inv_owner (p := .bump n c) h h2 rfl rfl (fun h0 => ?_) rfl
      ⟨h1, h2, ?_, h4, h5, h6, h7, ?_⟩ (fun q hq => Or.inl hq)
    · simp only [St.goto] at h0; rw [h2] at h0; cases h0
    · intro i hi
      simp only [St.goto] at hi
      simp only [CellOk, St.goto]
      rw [upd_ne _ _ (by omega)]; exact h3 i hi
    · simp [CellOk, St.goto]
  | @bump t n c hpc =>
    have hp := hpcs t; rw [hpc] at hp
    obtain ⟨h1, h2, h3, h4, h5, h6, h7, h8⟩ := hp
    subst h4
    have hall : ∀ i, i < s.count + 1 → CellOk s i := by
      intro i hi
      by_cases hic : i = s.count
      · rw [hic]; exact h8
      · exact h3 i (by omega)
    have hne : ∀ j, j < s.count → s.groups j ≠ s.groups s.count := by
      intro j hj; rw [h7]; exact h6 j hj
    exact {
      clow := by have := h.clow; simp only; omega
      chigh := by simp only; omega
      limit := h.limit
      inj := by
        intro i j hi hj hij
        simp only [St.goto] at hi hj hij
        by_cases hic : i = s.count <;> by_cases hjc : j = s.count
        · omega
        · subst hic; exact absurd hij.symm (hne j (by omega))
        · subst hjc; exact absurd hij (hne i (by omega))
        · exact h.inj i j (by omega) (by omega) hij
      nul := by
        intro i hi
        simp only [St.goto] at hi ⊢
        by_cases hic : i = s.count
        · subst hic; rw [h7]; exact h1
        · exact h.nul i (by omega)
      free := fun _ => hall
      res := by
        intro q hq
        rcases h.res q hq with ⟨h9, h10⟩ | ⟨h9, h10, _⟩
        · left; simp only [St.goto]; exact ⟨by omega, h10⟩
        · omega
      pcs := by
        intro t'
        by_cases ht : t' = t
        · subst ht
          simp only [St.goto, upd_self]
          exact ⟨h2, hall, Or.inl ⟨by simp, h7⟩⟩
        · simp only [St.goto]
          rw [upd_ne _ _ ht]
          refine pcOk_other (h.pcs t') ?_ (Nat.le_succ _)
          rw [h2]; simpa using fun e => ht e.symm }
  | @ret t n r hpc =>
    have hp := hpcs t; rw [hpc] at hp
    obtain ⟨h1, h2, h3⟩ := hp
    refine inv_owner (p := .idle) h h1 rfl rfl (fun _ => h2) rfl trivial (fun q hq => ?_)
    rcases List.mem_cons.1 hq with rfl | hq
    · exact Or.inr h3
    · exact Or.inl hq
  | @callUpd t u hpc =>
    exact inv_local (p := .uWant u) h rfl rfl rfl rfl rfl rfl rfl trivial (fun q hq => Or.inl hq)
  | @uLock t u hpc hm =>
    have hall := h.free hm
    exact {
      clow := h.clow, chigh := h.chigh, limit := h.limit, inj := h.inj, nul := h.nul
      free := fun h0 => by cases h0
      res := h.res
      pcs := by
        intro t'
        by_cases ht : t' = t
        · subst ht
          simp only [St.goto, upd_self]
          exact rfl
        · simp only [St.goto]
          rw [upd_ne _ _ ht]
          exact pcOk_other (h.pcs t') (by rw [hm]; simp) (Nat.le_refl _) }
  | @uEn t u hpc =>
    have hp := hpcs t; rw [hpc] at hp
    refine inv_owner (p := .uDis u) h hp rfl rfl (fun h0 => ?_) rfl ⟨hp, rfl⟩
      (fun q hq => Or.inl hq)
    simp only [St.goto] at h0; rw [show s.mutex = some t from hp] at h0; cases h0
  | @uDis t u hpc =>
    have hp := hpcs t; rw [hpc] at hp
    refine inv_owner (p := .uLoad u) h hp.1 rfl rfl (fun h0 => ?_) rfl ⟨hp.1, hp.2, rfl⟩
      (fun q hq => Or.inl hq)
    simp only [St.goto] at h0; rw [hp.1] at h0; cases h0
  | @uLoad t u hpc =>
    have hp := hpcs t; rw [hpc] at hp
    exact inv_local (p := .uLoop u s.count 0) h rfl rfl rfl rfl rfl rfl rfl
      ⟨hp.1, hp.2.1, hp.2.2, rfl, Nat.zero_le _, by omega⟩ (fun q hq => Or.inl hq)
  | @uStore t e d c i hpc hi =>
    have hp := hpcs t; rw [hpc] at hp
    obtain ⟨h1, h2, h3, h4, h5, h6⟩ := hp
    refine inv_owner (p := .uLoop (.update e d) c (i + 1)) h h1 rfl rfl (fun h0 => ?_) rfl
      ⟨h1, h2, h3, h4, hi, ?_⟩ (fun q hq => Or.inl hq)
    · simp only [St.goto] at h0; rw [h1] at h0; cases h0
    · intro j hj
      simp only [CellOk, St.goto]
      by_cases hji : j = i
      · subst hji; rw [upd_self]
      · rw [upd_ne _ _ hji]; exact h6 j (by omega)
  | @uClear t c i hpc hi =>
    have hp := hpcs t; rw [hpc] at hp
    obtain ⟨h1, h2, h3, h4, h5, h6⟩ := hp
    refine inv_owner (p := .uLoop .disable c (i + 1)) h h1 rfl rfl (fun h0 => ?_) rfl
      ⟨h1, h2, h3, h4, hi, ?_⟩ (fun q hq => Or.inl hq)
    · simp only [St.goto] at h0; rw [h1] at h0; cases h0
    · intro j hj
      simp only [CellOk, St.goto]
      by_cases hji : j = i
      · subst hji; rw [upd_self, h2, h3]; exact (calculateEnabled_disabled _).symm
      · rw [upd_ne _ _ hji]; exact h6 j (by omega)
  | @uRet t u c i hpc hi =>
    have hp := hpcs t; rw [hpc] at hp
    obtain ⟨h1, h2, h3, h4, h5, h6⟩ := hp
    exact inv_owner (p := .idle) h h1 rfl rfl
      (fun _ j hj => h6 j (by simp only [St.goto] at hj; omega)) rfl trivial
      (fun q hq => Or.inl hq)

theorem inv_reachable {s : St} (h : Reachable s) : Inv s := by
  induction h with
  | init => exact inv_init
  | step _ st ih => exact inv_step ih st

end Phosphor.RegConc
