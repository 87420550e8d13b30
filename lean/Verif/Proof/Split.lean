import Verif.Model.StringUtils
namespace Phosphor

/-- All pieces between delimiters (always one more than there are delimiters). -/
def pieces (d : Char) : Str → List Str
  | [] => [[]]
  | c :: cs =>
    if c = d then [] :: pieces d cs
    else match pieces d cs with
      | [] => [[c]]
      | p :: ps => (c :: p) :: ps

theorem pieces_ne_nil (d : Char) (s : Str) : pieces d s ≠ [] := by
  induction s with
  | nil => simp [pieces]
  | cons c s ih =>
    unfold pieces
    split
    · simp
    · split <;> simp

theorem pieces_intercalate (d : Char) (s : Str) : List.intercalate [d] (pieces d s) = s := by
  induction s with
  | nil => simp [pieces, List.intercalate]
  | cons c s ih =>
    unfold pieces
    have hne := pieces_ne_nil d s
    split
    · next h =>
      cases hp : pieces d s with
      | nil => exact absurd hp hne
      | cons p ps =>
        rw [hp] at ih
        simp only [List.intercalate] at ih
        simp [List.intercalate, List.intersperse, h, ih]
    · split
      · next h' => exact absurd h' hne
      · next p ps hp =>
        rw [hp] at ih
        rw [← ih]
        cases ps <;> simp [List.intercalate, List.intersperse]

theorem pieces_free (d : Char) (s : Str) : ∀ p ∈ pieces d s, d ∉ p := by
  induction s with
  | nil => simp [pieces]
  | cons c s ih =>
    unfold pieces
    split
    · intro p hp
      rcases List.mem_cons.1 hp with rfl | h
      · simp
      · exact ih p h
    · next hc =>
      split
      · simp; exact fun h => hc h.symm
      · next p ps hp =>
        intro q hq
        rcases List.mem_cons.1 hq with rfl | h
        · have := ih p (by simp [hp])
          simp [this]; exact fun h => hc h.symm
        · exact ih q (by simp [hp, h])

theorem pieces_of_free {d : Char} {s : Str} (h : d ∉ s) : pieces d s = [s] := by
  induction s with
  | nil => rfl
  | cons c s ih =>
    simp only [List.mem_cons, not_or] at h
    unfold pieces
    rw [if_neg (fun e => h.1 e.symm), ih h.2]

theorem pieces_append {d : Char} {p s : Str} (h : d ∉ p) :
    pieces d (p ++ d :: s) = p :: pieces d s := by
  induction p with
  | nil => simp [pieces]
  | cons c p ih =>
    simp only [List.mem_cons, not_or] at h
    rw [List.cons_append, pieces, if_neg (fun e => h.1 e.symm), ih h.2]

theorem pieces_intercalate_of_free {d : Char} {ps : List Str} (hne : ps ≠ [])
    (h : ∀ p ∈ ps, d ∉ p) : pieces d (List.intercalate [d] ps) = ps := by
  induction ps with
  | nil => exact absurd rfl hne
  | cons p ps ih =>
    cases ps with
    | nil =>
      have := pieces_of_free (h p (by simp))
      simpa [List.intercalate] using this
    | cons q qs =>
      have ih := ih (by simp) (fun x hx => h x (List.mem_cons_of_mem _ hx))
      have : List.intercalate [d] (p :: q :: qs) = p ++ d :: List.intercalate [d] (q :: qs) := by
        simp [List.intercalate, List.intersperse]
      rw [this, pieces_append (h p (by simp)), ih]

theorem getlineScan_some {d : Char} {s i r : Str} (h : getlineScan d s = (i, some r)) :
    s = i ++ d :: r ∧ d ∉ i := by
  induction s generalizing i with
  | nil => simp [getlineScan] at h
  | cons c s ih =>
    unfold getlineScan at h
    split at h
    · next hc => simp at h; obtain ⟨rfl, rfl⟩ := h; simp [hc]
    · next hc =>
      cases hg : getlineScan d s with
      | mk i' r' =>
        rw [hg] at h
        simp at h
        obtain ⟨rfl, rfl⟩ := h
        obtain ⟨h1, h2⟩ := ih hg
        exact ⟨by rw [h1]; simp, by simp [h2]; exact fun e => hc e.symm⟩

theorem getlineScan_none {d : Char} {s i : Str} (h : getlineScan d s = (i, none)) :
    s = i ∧ d ∉ i := by
  induction s generalizing i with
  | nil => simp [getlineScan] at h; simp [h]
  | cons c s ih =>
    unfold getlineScan at h
    split at h
    · simp at h
    · next hc =>
      cases hg : getlineScan d s with
      | mk i' r' =>
        rw [hg] at h
        simp at h
        obtain ⟨rfl, rfl⟩ := h
        obtain ⟨h1, h2⟩ := ih hg
        exact ⟨by rw [h1], by simp [h2]; exact fun e => hc e.symm⟩

/-- Drop one trailing empty piece. -/
def dropTrailing (l : List Str) : List Str := if l.getLast? = some [] then l.dropLast else l

theorem dropTrailing_cons {p : Str} {l : List Str} (h : l ≠ []) :
    dropTrailing (p :: l) = p :: dropTrailing l := by
  cases l with
  | nil => exact absurd rfl h
  | cons q l =>
    unfold dropTrailing
    simp only [List.getLast?_cons_cons, List.dropLast_cons_cons]
    split <;> rfl

/-- The getline loop, with enough fuel, yields all pieces except a trailing empty one. -/
theorem splitLoop_fuel (d : Char) (fuel : Nat) (s : Str) (acc : List Str)
    (hf : s.length < fuel) :
    splitLoop d fuel ⟨s, false⟩ acc = acc ++ dropTrailing (pieces d s) := by
  induction fuel generalizing s acc with
  | zero => omega
  | succ n ih =>
    unfold splitLoop getline
    simp only [Bool.false_eq_true, if_false]
    cases hg : getlineScan d s with
    | mk i r =>
      cases r with
      | some r =>
        obtain ⟨hs, hd⟩ := getlineScan_some hg
        subst hs
        simp only
        rw [ih r (acc ++ [i]) (by simp at hf; omega), pieces_append hd,
          dropTrailing_cons (pieces_ne_nil d r)]
        simp
      | none =>
        obtain ⟨hs, hd⟩ := getlineScan_none hg
        subst hs
        rw [pieces_of_free hd]
        simp only
        split
        · next h =>
          split at h
          · next h' => subst h'; simp [dropTrailing]
          · simp at h
        · next h =>
          split at h
          · simp at h
          · next h' =>
            simp at h
            obtain ⟨rfl, rfl⟩ := h
            cases n with
            | zero => simp [splitLoop, dropTrailing, h']
            | succ n => simp [splitLoop, getline, dropTrailing, h']

theorem splitString_eq (s : Str) (d : Char) (h : s ≠ []) :
    splitString s d = dropTrailing (pieces d s) := by
  unfold splitString
  rw [if_neg h, splitLoop_fuel _ _ _ _ (by omega)]
  simp

theorem joinString_eq (ps : List Str) (d : Char) :
    joinString ps d = List.intercalate [d] ps := by
  have hfold : ∀ (ps : List Str) (acc : Str),
      ps.foldl (fun r s => r ++ (s ++ [d])) acc = acc ++ ps.flatMap (· ++ [d]) := by
    intro ps
    induction ps with
    | nil => simp
    | cons p ps ih => intro acc; rw [List.foldl_cons, ih]; simp
  have hI : ∀ ps : List Str, ps ≠ [] →
      ps.flatMap (· ++ [d]) = List.intercalate [d] ps ++ [d] := by
    intro ps
    induction ps with
    | nil => intro h; exact absurd rfl h
    | cons p ps ih =>
      intro _
      cases ps with
      | nil => simp [List.intercalate]
      | cons q qs =>
        rw [List.flatMap_cons, ih (by simp)]
        simp [List.intercalate, List.intersperse]
  unfold joinString
  cases ps with
  | nil => rfl
  | cons p ps =>
    rw [if_neg (by simp)]
    simp only
    rw [hfold, List.nil_append, hI _ (by simp)]
    simp

theorem dropTrailing_of_last {l : List Str} (h : l.getLast? ≠ some []) : dropTrailing l = l := by
  simp [dropTrailing, h]

end Phosphor
