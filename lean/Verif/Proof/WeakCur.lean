import Verif.Proof.WeakWf
/-
The latest message of every location: reading it and storing after it is what an interleaving
does (C88).
-/
set_option linter.unusedSectionVars false

namespace Phosphor.Weak
variable {L V N : Type} [DecidableEq L] [DecidableEq N]
variable {μ : Mem L V N} {t : Nat} {l k : L} {ts : Nat} {m : Msg L V} {v u : V}

/-- The latest message of `l` has the value `v`. -/
def Mem.Cur (μ : Mem L V N) (l : L) (v : V) : Prop :=
  ∃ ts m, μ.hist l ts = some m ∧ m.val = v ∧ ∀ ts', ts < ts' → μ.hist l ts' = none

theorem Mem.Cur.init (f : L → V) : (Mem.init f : Mem L V N).Cur l (f l) :=
  ⟨0, ⟨f l, View.bot⟩, rfl, rfl, fun ts' h => if_neg (by omega)⟩

theorem Mem.Cur.unique (h : μ.Cur l v) (h' : μ.Cur l u) : v = u := by
  obtain ⟨ts, m, h1, h2, h3⟩ := h
  obtain ⟨ts', m', h4, h5, h6⟩ := h'
  have : ts = ts' := by
    rcases Nat.lt_trichotomy ts ts' with hlt | e | hlt
    · rw [h3 _ hlt] at h4; cases h4
    · exact e
    · rw [h6 _ hlt] at h1; cases h1
  subst this
  rw [h1] at h4; cases h4
  rw [← h2, ← h5]

/-- Everybody can read it, and store after it. -/
theorem Mem.Cur.get (h : μ.Cur l v) (hw : μ.Wf) (t : Nat) : ∃ ts m, μ.readable t l ts m ∧ m.val = v ∧
    μ.hist l (ts + 1) = none ∧ μ.free t l (ts + 1) ∧ ∀ ts', ts < ts' → μ.hist l ts' = none := by
  obtain ⟨ts, m, h1, h2, h3⟩ := h
  obtain ⟨m', hm⟩ := hw.view t l
  have hle : (μ.view t).ts l ≤ ts := by
    rcases Nat.lt_or_ge ts ((μ.view t).ts l) with hlt | hge
    · rw [h3 _ hlt] at hm; cases hm
    · exact hge
  exact ⟨ts, m, ⟨h1, hle⟩, h2, h3 _ (by omega), ⟨h3 _ (by omega), by omega⟩, h3⟩

theorem Mem.Cur.keep {ν : Mem L V N} (h : μ.Cur l v) (e : ν.hist = μ.hist) : ν.Cur l v := by
  obtain ⟨ts, m, h1, h2, h3⟩ := h
  exact ⟨ts, m, by rw [e]; exact h1, h2, fun ts' ht => by rw [e]; exact h3 ts' ht⟩

/-- A message after the latest one is the latest. -/
theorem Mem.Cur.new {ν : Mem L V N} (h3 : ∀ ts', ts < ts' → μ.hist l ts' = none)
    (e : ν.hist = fun k i => if k = l ∧ i = ts + 1 then some m else μ.hist k i) (hv : m.val = v) : ν.Cur l v := by
  refine ⟨ts + 1, m, by rw [e]; simp, hv, fun ts' ht => ?_⟩
  rw [e]
  show (if _ then _ else _) = none
  rw [if_neg (by omega)]
  exact h3 _ (by omega)

theorem Mem.Cur.away {ν : Mem L V N} {i : Nat} (h : μ.Cur k v) (hk : k ≠ l)
    (e : ν.hist = fun k j => if k = l ∧ j = i then some m else μ.hist k j) : ν.Cur k v := by
  obtain ⟨ts, m', h1, h2, h3⟩ := h
  refine ⟨ts, m', by rw [e]; simpa [hk] using h1, h2, fun ts' ht => ?_⟩
  rw [e]
  show (if _ then _ else _) = none
  rw [if_neg (by rintro ⟨e, -⟩; exact hk e)]
  exact h3 ts' ht

/-- Every location has a latest message. -/
theorem Mem.Wf.cur (hw : μ.Wf) (l : L) : ∃ v, μ.Cur l v := by
  obtain ⟨n, hn⟩ := hw.fin l
  have key : ∀ n, (∀ ts, n ≤ ts → μ.hist l ts = none) → ∃ v, μ.Cur l v := by
    intro n
    induction n with
    | zero =>
      intro hn
      obtain ⟨m, hm⟩ := hw.view 0 l
      rw [hn _ (Nat.zero_le _)] at hm; cases hm
    | succ n ih =>
      intro hn
      cases hx : μ.hist l n with
      | some m => exact ⟨m.val, n, m, hx, rfl, fun ts' h => hn ts' h⟩
      | none =>
        refine ih fun ts h => ?_
        rcases Nat.eq_or_lt_of_le h with e | h
        · rw [← e]; exact hx
        · exact hn ts h
  exact key n hn

end Phosphor.Weak
