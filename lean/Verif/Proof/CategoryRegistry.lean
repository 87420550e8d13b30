import Verif.Model.CategoryRegistry
import Verif.Proof.InlineZString
namespace Phosphor

/-! ### The enablement decision -/

theorem enabledRelevant_eq (cs en : List Str) :
    enabledRelevant cs en = cs.filter (fun c => en.any (fun e => globMatch e c)) := by
  have h : ∀ (cs acc : List Str), cs.foldl (fun acc category =>
      if en.any (fun e => globMatch e category) then acc ++ [category] else acc) acc
      = acc ++ cs.filter (fun c => en.any (fun e => globMatch e c)) := by
    intro cs
    induction cs with
    | nil => simp
    | cons c cs ih =>
      intro acc
      rw [List.foldl_cons, ih, List.filter_cons]
      split <;> simp
  exact (h cs []).trans (List.nil_append _)

theorem anyNotDisabled_eq (dis cs : List Str) :
    anyNotDisabled dis cs = cs.any (fun c => !dis.any (fun e => globMatch e c)) := by
  induction cs with
  | nil => rfl
  | cons c cs ih =>
    rw [anyNotDisabled, List.any_cons, ih]
    cases h : dis.any (fun e => globMatch e c) <;> simp

theorem calculateEnabled_iff (g : Str) (e d : List Str) :
    calculateEnabled g e d = true ↔
      ∃ c ∈ splitString g ',', (∃ p ∈ e, globMatch p c = true) ∧
        ∀ p ∈ d, globMatch p c = false := by
  rw [calculateEnabled, anyNotDisabled_eq, enabledRelevant_eq]
  simp only [List.any_filter, List.any_eq_true, Bool.and_eq_true, Bool.not_eq_true',
    List.any_eq_false, Bool.not_eq_true]

theorem calculateEnabled_disabled (g : Str) : calculateEnabled g [[]] [[]] = false := by
  rw [Bool.eq_false_iff]
  intro h
  obtain ⟨c, _, ⟨p, hp, h1⟩, h2⟩ := (calculateEnabled_iff ..).1 h
  simp at hp; subst hp
  rw [h2 [] (by simp)] at h1; cases h1

theorem calculateEnabled_nil (g : Str) (d : List Str) : calculateEnabled g [] d = false := by
  rw [Bool.eq_false_iff]
  intro h
  obtain ⟨c, _, ⟨p, hp, h1⟩, h2⟩ := (calculateEnabled_iff ..).1 h
  simp at hp

/-! ### Array access -/

theorem readAt_ok {α} {l : List α} {i : Nat} (h : i < l.length) : readAt l i = .ok l[i] := by
  simp [readAt, h]

theorem writeAt_ok {α} {l : List α} {i : Nat} (a : α) (h : i < l.length) :
    writeAt l i a = .ok (l.set i a) := by simp [writeAt, h]

theorem readAt_some {α} {l : List α} {i : Nat} {a : α} (h : l[i]? = some a) :
    readAt l i = .ok a := by simp [readAt, h]

/-! ### The search loop -/

theorem scanGroups_spec (gs : List Str) (name : Str) (i k : Nat) (h : i + k ≤ gs.length) :
    (scanGroups gs name i k = .ok none ∧
      ∀ j, i ≤ j → j < i + k → ∀ g, gs[j]? = some g → cstr g ≠ cstr name) ∨
    ∃ j, scanGroups gs name i k = .ok (some j) ∧ i ≤ j ∧ j < i + k ∧
      ∃ g, gs[j]? = some g ∧ cstr g = cstr name := by
  induction k generalizing i with
  | zero => left; exact ⟨rfl, by omega⟩
  | succ k ih =>
    unfold scanGroups
    rw [readAt_ok (show i < gs.length by omega)]
    simp only
    split
    · next hg => right; exact ⟨i, rfl, by omega, by omega, gs[i], by simp, hg⟩
    · next hg =>
      rcases ih (i + 1) (by omega) with ⟨h1, h2⟩ | ⟨j, h1, h2, h3, h4⟩
      · left
        refine ⟨h1, ?_⟩
        intro j hj hj' g hgj
        by_cases hji : j = i
        · subst hji
          rw [List.getElem?_eq_getElem (by omega)] at hgj
          cases hgj; exact hg
        · exact h2 j (by omega) (by omega) g hgj
      · right; exact ⟨j, h1, by omega, by omega, h4⟩

/-! ### Invariant of the registry -/

/-- The representation invariant. -/
structure RegInv (r : Registry) : Prop where
  glen : r.groups.length = 250
  slen : r.statuses.length = 250
  clow : 3 ≤ r.count
  chigh : r.count ≤ 250
  limit : r.groups[1]? = some "category limit reached".toList
  nul : ∀ i g, i < r.count → r.groups[i]? = some g → cstr g = g
  inj : ∀ i j g, i < r.count → j < r.count → r.groups[i]? = some g → r.groups[j]? = some g → i = j
  stat : ∀ i g, i < r.count → r.groups[i]? = some g →
    r.statuses[i]? = some (calculateEnabled g r.enabled r.disabled)

theorem init_groups_lt {i : Nat} (h : i < 3) : Registry.init.groups[i]? =
    ["default".toList, "category limit reached".toList, "__metadata".toList][i]? := by
  unfold Registry.init
  rw [List.getElem?_append_left (by simpa using h)]

theorem regInv_init : RegInv Registry.init where
  glen := by unfold Registry.init; rw [List.length_append, List.length_replicate]; rfl
  slen := by unfold Registry.init; rw [List.length_replicate]; rfl
  clow := Nat.le_refl 3
  chigh := by show 3 ≤ 250; omega
  limit := by rw [init_groups_lt (by omega)]; rfl
  nul := by
    intro i g hi hg
    change i < 3 at hi
    rw [init_groups_lt hi] at hg
    match i, hi with
    | 0, _ => cases hg; decide
    | 1, _ => cases hg; decide
    | 2, _ => cases hg; decide
  inj := by
    intro i j g hi hj h1 h2
    change i < 3 at hi
    change j < 3 at hj
    rw [init_groups_lt hi] at h1
    rw [init_groups_lt hj] at h2
    rw [← h2] at h1
    match i, hi, j, hj with
    | 0, _, 0, _ | 1, _, 1, _ | 2, _, 2, _ => rfl
    | 0, _, 1, _ | 0, _, 2, _ | 1, _, 0, _ | 1, _, 2, _ | 2, _, 0, _ | 2, _, 1, _ =>
      revert h1; decide
  stat := by
    intro i g hi hg
    change i < 3 at hi
    simp only [Registry.init, registrySize]
    rw [calculateEnabled_nil, List.getElem?_replicate, if_pos (by omega)]

/-- What a lookup does, for a registry satisfying the invariant: known group, new group or
overflow. -/
theorem getStatus_spec {r : Registry} (h : RegInv r) (name : Str) :
    (∃ i, i < r.count ∧ r.groups[i]? = some (cstr name) ∧ r.getStatus name = .ok (i, r)) ∨
    ((∀ i, i < r.count → r.groups[i]? ≠ some (cstr name)) ∧ r.count < 250 ∧
      r.getStatus name = .ok (r.count, { r with
        groups := r.groups.set r.count (cstr name)
        statuses := r.statuses.set r.count (calculateEnabled (cstr name) r.enabled r.disabled)
        count := r.count + 1 })) ∨
    ((∀ i, i < r.count → r.groups[i]? ≠ some (cstr name)) ∧ r.count = 250 ∧
      r.getStatus name = .ok (1, r)) := by
  have hgl := h.glen
  have hsl := h.slen
  have hch := h.chigh
  rcases scanGroups_spec r.groups name 0 r.count (by omega) with ⟨h1, h2⟩ | ⟨j, h1, _, h3, g, h4, h5⟩
  · have hne : ∀ i, i < r.count → r.groups[i]? ≠ some (cstr name) := by
      intro i hi hg
      have := h2 i (by omega) (by omega) _ hg
      rw [h.nul i _ hi hg] at this
      exact this rfl
    by_cases hc : r.count < 250
    · right; left
      refine ⟨hne, hc, ?_⟩
      unfold Registry.getStatus
      simp only [h1, Res.bind_ok, registrySize, hc, if_true]
      rw [writeAt_ok _ (by omega)]
      simp only [Res.bind_ok]
      rw [readAt_some (a := cstr name) (by rw [List.getElem?_set_self (by omega)])]
      simp only [Res.bind_ok]
      rw [writeAt_ok _ (by omega)]
      simp
    · right; right
      refine ⟨hne, by omega, ?_⟩
      unfold Registry.getStatus
      simp only [h1, Res.bind_ok, registrySize, hc, if_false]
      rw [readAt_ok (by omega)]
      simp
  · left
    refine ⟨j, by omega, ?_, ?_⟩
    · rw [h4, ← h5, h.nul j g (by omega) h4]
    · unfold Registry.getStatus
      simp only [h1, Res.bind_ok]
      rw [readAt_ok (by omega)]
      simp

theorem regInv_insert {r : Registry} (h : RegInv r) (name : Str)
    (hne : ∀ i, i < r.count → r.groups[i]? ≠ some (cstr name)) (hc : r.count < 250) :
    RegInv { r with
        groups := r.groups.set r.count (cstr name)
        statuses := r.statuses.set r.count (calculateEnabled (cstr name) r.enabled r.disabled)
        count := r.count + 1 } := by
  have hgl := h.glen
  have hsl := h.slen
  have hcl := h.clow
  have key : ∀ i g, i < r.count + 1 → (r.groups.set r.count (cstr name))[i]? = some g →
      (i < r.count ∧ r.groups[i]? = some g) ∨ (i = r.count ∧ g = cstr name) := by
    intro i g hi hg
    by_cases hic : i = r.count
    · right
      subst hic
      rw [List.getElem?_set_self (by omega)] at hg
      cases hg; exact ⟨rfl, rfl⟩
    · left
      rw [List.getElem?_set_ne (by omega)] at hg
      exact ⟨by omega, hg⟩
  exact {
    glen := by simpa using hgl
    slen := by simpa using hsl
    clow := by simp; omega
    chigh := by simp; omega
    limit := by simp only; rw [List.getElem?_set_ne (by omega)]; exact h.limit
    nul := by
      intro i g hi hg
      rcases key i g hi hg with ⟨h1, h2⟩ | ⟨_, rfl⟩
      · exact h.nul i g h1 h2
      · exact cstr_of_free (cstr_free name)
    inj := by
      intro i j g hi hj hgi hgj
      rcases key i g hi hgi with ⟨h1, h2⟩ | ⟨h1, rfl⟩ <;>
        rcases key j _ hj hgj with ⟨h3, h4⟩ | ⟨h3, h5⟩
      · exact h.inj i j g h1 h3 h2 h4
      · subst h5; exact absurd h2 (hne i h1)
      · exact absurd h4 (hne j h3)
      · omega
    stat := by
      intro i g hi hg
      rcases key i g hi hg with ⟨h1, h2⟩ | ⟨rfl, rfl⟩
      · simp only
        rw [List.getElem?_set_ne (by omega)]
        exact h.stat i g h1 h2
      · simp only
        rw [List.getElem?_set_self (by omega)] }

theorem regInv_getStatus {r r' : Registry} {i : Nat} {name : Str} (h : RegInv r)
    (hs : r.getStatus name = .ok (i, r')) : RegInv r' := by
  rcases getStatus_spec h name with ⟨j, _, _, h1⟩ | ⟨hne, hc, h1⟩ | ⟨_, _, h1⟩ <;>
    rw [h1] at hs <;> cases hs
  · exact h
  · exact regInv_insert h name hne hc
  · exact h

theorem updateLoop_spec (gs e d : List Str) (i k : Nat) (st : List Bool)
    (hg : i + k ≤ gs.length) (hs : i + k ≤ st.length) :
    ∃ st', updateLoop gs e d i k st = .ok st' ∧ st'.length = st.length ∧
      (∀ j, j < i → st'[j]? = st[j]?) ∧ (∀ j, i + k ≤ j → st'[j]? = st[j]?) ∧
      ∀ j g, i ≤ j → j < i + k → gs[j]? = some g → st'[j]? = some (calculateEnabled g e d) := by
  induction k generalizing i st with
  | zero => exact ⟨st, rfl, rfl, by simp, by simp, by omega⟩
  | succ k ih =>
    have hi : i < gs.length := by omega
    obtain ⟨st', h1, h2, h3, h4, h5⟩ :=
      ih (i + 1) (st.set i (calculateEnabled gs[i] e d)) (by omega) (by simp; omega)
    refine ⟨st', ?_, by simpa using h2, ?_, ?_, ?_⟩
    · unfold updateLoop
      rw [readAt_ok hi]
      simp only [Res.bind_ok]
      rw [writeAt_ok _ (by omega)]
      simpa using h1
    · intro j hj
      rw [h3 j (by omega), List.getElem?_set_ne (by omega)]
    · intro j hj
      rw [h4 j (by omega), List.getElem?_set_ne (by omega)]
    · intro j g hj hj' hgj
      by_cases hji : j = i
      · subst hji
        rw [h3 j (by omega), List.getElem?_set_self (by omega)]
        rw [List.getElem?_eq_getElem hi] at hgj
        cases hgj; rfl
      · exact h5 j g (by omega) (by omega) hgj

theorem disableLoop_spec (i k : Nat) (st : List Bool) (hs : i + k ≤ st.length) :
    ∃ st', disableLoop i k st = .ok st' ∧ st'.length = st.length ∧
      (∀ j, j < i → st'[j]? = st[j]?) ∧ (∀ j, i + k ≤ j → st'[j]? = st[j]?) ∧
      ∀ j, i ≤ j → j < i + k → st'[j]? = some false := by
  induction k generalizing i st with
  | zero => exact ⟨st, rfl, rfl, by simp, by simp, by omega⟩
  | succ k ih =>
    obtain ⟨st', h1, h2, h3, h4, h5⟩ := ih (i + 1) (st.set i false) (by simp; omega)
    refine ⟨st', ?_, by simpa using h2, ?_, ?_, ?_⟩
    · unfold disableLoop
      rw [writeAt_ok _ (by omega)]
      simpa using h1
    · intro j hj
      rw [h3 j (by omega), List.getElem?_set_ne (by omega)]
    · intro j hj
      rw [h4 j (by omega), List.getElem?_set_ne (by omega)]
    · intro j hj hj'
      by_cases hji : j = i
      · subst hji
        rw [h3 j (by omega), List.getElem?_set_self (by omega)]
      · exact h5 j (by omega) (by omega)

theorem updateEnabled_spec {r : Registry} (h : RegInv r) (e d : List Str) :
    ∃ r', r.updateEnabled e d = .ok r' ∧ RegInv r' ∧ r'.groups = r.groups ∧
      r'.count = r.count ∧ r'.enabled = e ∧ r'.disabled = d := by
  have hgl := h.glen
  have hsl := h.slen
  have hch := h.chigh
  obtain ⟨st, h1, h2, _, _, h5⟩ :=
    updateLoop_spec r.groups e d 0 r.count r.statuses (by omega) (by omega)
  refine ⟨{ r with enabled := e, disabled := d, statuses := st }, ?_, ?_, rfl, rfl, rfl, rfl⟩
  · simp [Registry.updateEnabled, h1]
  · exact { h with
      slen := by simpa [h2] using hsl
      stat := fun i g hi hg => h5 i g (by omega) (by simpa using hi) hg }

theorem disableAll_spec {r : Registry} (h : RegInv r) :
    ∃ r', r.disableAll = .ok r' ∧ RegInv r' ∧ r'.groups = r.groups ∧
      r'.count = r.count ∧ r'.enabled = [[]] ∧ r'.disabled = [[]] := by
  have hsl := h.slen
  have hch := h.chigh
  obtain ⟨st, h1, h2, _, _, h5⟩ := disableLoop_spec 0 r.count r.statuses (by omega)
  refine ⟨{ r with enabled := [[]], disabled := [[]], statuses := st }, ?_, ?_, rfl, rfl, rfl, rfl⟩
  · simp [Registry.disableAll, h1]
  · exact { h with
      slen := by simpa [h2] using hsl
      stat := fun i g hi hg => by
        rw [calculateEnabled_disabled]
        exact h5 i (by omega) (by simpa using hi) }

theorem step_spec {r : Registry} (h : RegInv r) (op : RegOp) :
    ∃ o r', r.step op = .ok (o, r') ∧ RegInv r' ∧ r.count ≤ r'.count ∧
      (∀ i, i < r.count → r'.groups[i]? = r.groups[i]?) := by
  cases op with
  | lookup name =>
    rcases getStatus_spec h name with ⟨j, _, _, h1⟩ | ⟨hne, hc, h1⟩ | ⟨_, _, h1⟩
    · exact ⟨some j, r, by simp [Registry.step, h1], h, Nat.le_refl _, fun _ _ => rfl⟩
    · refine ⟨some r.count, _, by simp only [Registry.step, h1, Res.bind_ok]; rfl,
        regInv_insert h name hne hc, by simp, ?_⟩
      intro i hi
      simp only
      rw [List.getElem?_set_ne (by omega)]
    · exact ⟨some 1, r, by simp [Registry.step, h1], h, Nat.le_refl _, fun _ _ => rfl⟩
  | update e d =>
    obtain ⟨r', h1, h2, h3, h4, _⟩ := updateEnabled_spec h e d
    exact ⟨none, r', by simp [Registry.step, h1], h2, by omega, fun _ _ => by rw [h3]⟩
  | disable =>
    obtain ⟨r', h1, h2, h3, h4, _⟩ := disableAll_spec h
    exact ⟨none, r', by simp [Registry.step, h1], h2, by omega, fun _ _ => by rw [h3]⟩

theorem run_spec {r : Registry} (h : RegInv r) (ops : List RegOp) :
    ∃ r', r.run ops = .ok r' ∧ RegInv r' ∧ r.count ≤ r'.count ∧
      (∀ i, i < r.count → r'.groups[i]? = r.groups[i]?) := by
  induction ops generalizing r with
  | nil => exact ⟨r, rfl, h, Nat.le_refl _, fun _ _ => rfl⟩
  | cons op ops ih =>
    obtain ⟨o, r1, h1, h2, h3, h4⟩ := step_spec h op
    obtain ⟨r2, h5, h6, h7, h8⟩ := ih h2
    refine ⟨r2, by simp [Registry.run, h1, h5], h6, by omega, ?_⟩
    intro i hi
    rw [h8 i (by omega), h4 i hi]

theorem run_append (r : Registry) (a b : List RegOp) :
    r.run (a ++ b) = (r.run a >>= fun r => r.run b) := by
  induction a generalizing r with
  | nil => rfl
  | cons op a ih =>
    simp only [List.cons_append, Registry.run]
    cases r.step op with
    | ok p => simp [ih]
    | throw e => rfl
    | ub => rfl

end Phosphor
