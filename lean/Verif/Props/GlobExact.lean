import Verif.Props.Strings
/-
C03 for every pattern: the exact language of `glob_match`, whatever follows the first `*` or `+`.
-/
namespace Phosphor
open Glob

/-- Drops every `*` that is directly followed by another `*`. Not code: used to state C03. -/
def squash : Str → Str
  | [] => []
  | c :: t => if c = '*' ∧ t.head? = some '*' then squash t else c :: squash t

theorem squash_cons (c : Char) (t : Str) : ∃ q, squash (c :: t) = c :: q := by
  induction t generalizing c with
  | nil => exact ⟨[], by simp [squash]⟩
  | cons d t ih =>
    rw [squash]
    split
    · rename_i h
      obtain ⟨q, hq⟩ := ih d
      have hd : d = '*' := by simpa using h.2
      exact ⟨q, by rw [hq, hd, h.1]⟩
    · exact ⟨_, rfl⟩

theorem squash_literal {t : Str} (h : Literal t) : squash t = t := by
  induction t with
  | nil => rfl
  | cons c t ih =>
    rw [squash, if_neg (fun e => (h c (List.mem_cons_self ..)).2.1 e.1),
      ih (fun d hd => h d (List.mem_cons_of_mem _ hd))]

theorem cons_sublist_iff_dropWhile (c : Char) (q b : Str) :
    (c :: q).Sublist b ↔ ∃ r, b.dropWhile (fun x => c ≠ x) = c :: r ∧ q.Sublist r := by
  induction b with
  | nil => simp
  | cons x b ih =>
    by_cases hx : c = x
    · subst hx
      rw [List.dropWhile_cons_of_neg (by simp), List.cons_sublist_cons]
      constructor
      · exact fun h => ⟨b, rfl, h⟩
      · rintro ⟨r, hr, h⟩; cases hr; exact h
    · rw [List.dropWhile_cons_of_pos (by simpa using hx), ← ih]
      constructor
      · intro h
        cases h with
        | cons _ h => exact h
        | cons_cons => exact absurd rfl hx
      · exact fun h => h.cons _

theorem globLoop_star (t b : Str) : globLoop t b true = true ↔ (squash t).Sublist b := by
  induction t generalizing b with
  | nil => simp [globLoop, squash]
  | cons c t ih =>
    obtain ⟨q, hq⟩ := squash_cons c t
    have hdw : ∀ r, b.dropWhile (fun x => c ≠ x) = r → r = [] ∨ ∃ r', r = c :: r' := by
      intro r hr
      cases r with
      | nil => exact Or.inl rfl
      | cons y r =>
        right
        have := List.head?_dropWhile_not (fun x => decide (c ≠ x)) b
        rw [hr] at this
        simp at this
        exact ⟨r, by rw [this]⟩
    rcases hdw _ rfl with h0 | ⟨r, h0⟩
    · have h1 : globLoop (c :: t) b true = false := by rw [globLoop]; simp only [if_true, h0]; simp
      rw [h1, hq, cons_sublist_iff_dropWhile, h0]
      simp
    · by_cases hc : c = '*'
      · subst hc
        have h1 : globLoop ('*' :: t) b true = globLoop t ('*' :: r) true := by
          rw [globLoop]; simp only [if_true, h0]; simp
        rw [h1, ih]
        cases t with
        | nil =>
          have : (squash ['*']).Sublist b := (cons_sublist_iff_dropWhile _ [] b).2 ⟨r, h0, List.nil_sublist _⟩
          exact ⟨fun _ => this, fun _ => List.nil_sublist _⟩
        | cons d t =>
          obtain ⟨q', hq'⟩ := squash_cons d t
          by_cases hd : d = '*'
          · subst hd
            rw [squash.eq_def ('*' :: '*' :: t)]
            simp only [List.head?_cons, and_self, if_true]
            rw [hq', cons_sublist_iff_dropWhile, cons_sublist_iff_dropWhile '*' q' b, h0]
            simp
          · rw [squash.eq_def ('*' :: d :: t)]
            simp only [List.head?_cons, Option.some.injEq, hd, and_false, if_false]
            rw [cons_sublist_iff_dropWhile '*' _ b, h0, hq']
            constructor
            · intro h
              cases h with
              | cons _ h => exact ⟨r, rfl, h⟩
              | cons_cons => exact absurd rfl hd
            · rintro ⟨r', e, h⟩; cases e; exact h.cons _
      · have h1 : globLoop (c :: t) b true = globLoop t r true := by
          rw [globLoop]; simp only [if_true, h0]; simp [hc]
        rw [h1, ih, squash, if_neg (fun e => hc e.1), cons_sublist_iff_dropWhile, h0]
        constructor
        · exact fun h => ⟨r, rfl, h⟩
        · rintro ⟨r', e, h⟩; cases e; exact h

/-- C03: every pattern has no `*` and no `+`, or there is a first one. With `C03_simple`, `C03_star`
and `C03_plus` this gives the exact language of every pattern. -/
theorem C03_cases (g : Str) : Simple g ∨ ∃ p t, Simple p ∧ (g = p ++ '*' :: t ∨ g = p ++ '+' :: t) := by
  induction g with
  | nil => exact Or.inl (by simp [Simple])
  | cons c g ih =>
    by_cases h1 : c = '*'
    · exact Or.inr ⟨[], g, by simp [Simple], Or.inl (by rw [h1]; rfl)⟩
    by_cases h2 : c = '+'
    · exact Or.inr ⟨[], g, by simp [Simple], Or.inr (by rw [h2]; rfl)⟩
    have cons : ∀ p, Simple p → Simple (c :: p) := fun p hp d hd =>
      (List.mem_cons.1 hd).elim (fun e => e ▸ ⟨h1, h2⟩) (hp d)
    rcases ih with ih | ⟨p, t, hp, e | e⟩
    · exact Or.inl (cons g ih)
    · exact Or.inr ⟨c :: p, t, cons p hp, Or.inl (by rw [e]; rfl)⟩
    · exact Or.inr ⟨c :: p, t, cons p hp, Or.inr (by rw [e]; rfl)⟩

/-- C03: whatever follows the first wildcard `*`: the rest of the pattern, read literally and with
adjacent `*` taken as one, is a subsequence of what the prefix leaves of the subject. -/
theorem C03_star (p t s : Str) (hp : Simple p) :
    globMatch (p ++ '*' :: t) s = true ↔ ∃ a b, s = a ++ b ∧ Matches p a ∧ (squash t).Sublist b := by
  unfold globMatch
  rw [globLoop_simple_append hp]
  have h1 : ∀ b, globLoop ('*' :: t) b false = globLoop t b true := fun b => by rw [globLoop]; simp
  simp only [h1, globLoop_star]

/-- C03: and the same for `+`, which takes one character. -/
theorem C03_plus (p t s : Str) (hp : Simple p) :
    globMatch (p ++ '+' :: t) s = true ↔
      ∃ a c b, s = a ++ c :: b ∧ Matches p a ∧ (squash t).Sublist b := by
  unfold globMatch
  rw [globLoop_simple_append hp]
  constructor
  · rintro ⟨a, b, rfl, hm, h⟩
    cases b with
    | nil => simp [globLoop] at h
    | cons c b =>
      refine ⟨a, c, b, rfl, hm, ?_⟩
      rw [globLoop] at h
      simpa [globLoop_star] using h
  · rintro ⟨a, c, b, rfl, hm, h⟩
    refine ⟨a, c :: b, rfl, hm, ?_⟩
    rw [globLoop]
    simpa [globLoop_star] using h

/-- Patterns with several wildcards: `a*b**c?` requires a literal `*` and a literal `?`. -/
example : globMatch "a*b**c?".toList "axxb-*c?!".toList = true ∧
    globMatch "a*b**c?".toList "axxbyyc".toList = false ∧
    squash "b**c?".toList = "b*c?".toList := by decide

end Phosphor
