import Verif.Model.StringUtils
import Verif.Spec.Glob
namespace Phosphor
open Glob

theorem matches_simple_iff {p s : Str} (hp : Simple p) :
    Matches p s ↔ p.length = s.length ∧ ∀ i, i < p.length → p[i]? = some '?' ∨ p[i]? = s[i]? := by
  induction p generalizing s with
  | nil =>
    constructor
    · intro h; cases h; simp
    · intro h
      have : s = [] := List.length_eq_zero_iff.1 h.1.symm
      subst this; exact Matches.nil
  | cons c p ih =>
    have hc := hp c (by simp)
    have hp' : Simple p := fun x hx => hp x (by simp [hx])
    constructor
    · intro h
      have key : ∃ x s', s = x :: s' ∧ (c = '?' ∨ c = x) ∧ Matches p s' := by
        cases h with
        | lit _ _ _ h' => exact ⟨_, _, rfl, Or.inr rfl, h'⟩
        | any h' => exact ⟨_, _, rfl, Or.inl rfl, h'⟩
        | star => exact absurd rfl hc.1
        | plus => exact absurd rfl hc.2
      obtain ⟨x, s', rfl, hx, h'⟩ := key
      obtain ⟨h1, h2⟩ := (ih hp').1 h'
      refine ⟨by simp [h1], ?_⟩
      intro i hi
      cases i with
      | zero => simpa using hx
      | succ i => simpa using h2 i (by simpa using hi)
    · rintro ⟨h1, h2⟩
      cases s with
      | nil => simp at h1
      | cons x s =>
        have h0 := h2 0 (by simp)
        have hm : Matches p s := (ih hp').2
          ⟨by simpa using h1, fun i hi => by simpa using h2 (i + 1) (by simpa using hi)⟩
        simp at h0
        by_cases hq : c = '?'
        · subst hq; exact Matches.any hm
        · have : c = x := by rcases h0 with h | h
                             · exact absurd h hq
                             · exact h
          subst this
          exact Matches.lit hq hc.1 hc.2 hm

/-- The loop on a star-free prefix of the pattern consumes a matching prefix. -/
theorem globLoop_simple_append {p q s : Str} (hp : Simple p) :
    globLoop (p ++ q) s false = true ↔
      ∃ a b, s = a ++ b ∧ Matches p a ∧ globLoop q b false = true := by
  induction p generalizing s with
  | nil =>
    constructor
    · intro h; exact ⟨[], s, rfl, Matches.nil, by simpa using h⟩
    · rintro ⟨a, b, rfl, hm, h⟩; cases hm; simpa using h
  | cons c p ih =>
    have hc := hp c (by simp)
    have hp' : Simple p := fun x hx => hp x (by simp [hx])
    rw [List.cons_append, globLoop]
    simp only [Bool.false_eq_true, if_false, Bool.false_and, hc.1, hc.2]
    split
    · next hq =>
      subst hq
      cases s with
      | nil =>
        simp only [Bool.false_eq_true, false_iff]
        rintro ⟨a, b, hab, hm, _⟩
        cases hm <;> simp_all
      | cons x s =>
        simp only
        rw [ih hp']
        constructor
        · rintro ⟨a, b, rfl, hm, h⟩; exact ⟨x :: a, b, rfl, Matches.any hm, h⟩
        · rintro ⟨a, b, hab, hm, h⟩
          cases hm with
          | lit hq => exact absurd rfl hq
          | any hm =>
            simp at hab
            exact ⟨_, _, hab.2, hm, h⟩
    · next hq =>
      cases s with
      | nil =>
        simp only [Bool.false_eq_true, false_iff]
        rintro ⟨a, b, hab, hm, _⟩
        cases hm <;> simp_all
      | cons x s =>
        simp only
        split
        · next hne =>
          simp only [Bool.false_eq_true, false_iff]
          rintro ⟨a, b, hab, hm, _⟩
          cases hm with
          | lit => simp at hab; exact hne hab.1.symm
          | any => exact hq rfl
          | star => exact hc.1 rfl
          | plus => exact hc.2 rfl
        · next hne =>
          have hcx : c = x := by simpa using hne
          subst hcx
          rw [ih hp']
          constructor
          · rintro ⟨a, b, rfl, hm, h⟩
            exact ⟨c :: a, b, rfl, Matches.lit hq hc.1 hc.2 hm, h⟩
          · rintro ⟨a, b, hab, hm, h⟩
            cases hm with
            | lit _ _ _ hm => simp at hab; exact ⟨_, _, hab, hm, h⟩
            | any => exact absurd rfl hq
            | star => exact absurd rfl hc.1
            | plus => exact absurd rfl hc.2

theorem cons_sublist_dropWhile {c : Char} {cs r : Str} :
    (c :: cs).Sublist r ↔ ∃ r', r.dropWhile (fun x => c ≠ x) = c :: r' ∧ cs.Sublist r' := by
  induction r with
  | nil => simp
  | cons x r ih =>
    by_cases h : c = x
    · subst h; simp
    · rw [List.dropWhile_cons_of_pos (by simpa using h), ← ih]
      constructor
      · intro hs
        cases hs with
        | cons _ hs => exact hs
        | cons_cons _ _ => exact absurd rfl h
      · intro hs; exact hs.cons _

/-- Once a star has been seen, a literal tail is searched as a subsequence. -/
theorem globLoop_star_literal {t r : Str} (ht : Literal t) :
    globLoop t r true = true ↔ t.Sublist r := by
  induction t generalizing r with
  | nil => simp [globLoop]
  | cons c t ih =>
    obtain ⟨h1, h2, h3⟩ := ht c (by simp)
    have ht' : Literal t := fun x hx => ht x (by simp [hx])
    rw [globLoop, cons_sublist_dropWhile]
    simp only [if_true, Bool.true_and, h1, h2, h3, if_false]
    cases hr : r.dropWhile (fun x => c ≠ x) with
    | nil => simp
    | cons x r' =>
      have hx : c = x := by
        have := List.head?_dropWhile_not (fun x => decide (c ≠ x)) r
        rw [hr] at this
        simpa using this
      subst hx
      simp [ih ht']

/-- What the ordinary glob language says about a literal tail after a star. -/
theorem matches_literal {t s : Str} (ht : Literal t) : Matches t s ↔ s = t := by
  induction t generalizing s with
  | nil =>
    constructor
    · intro h; cases h; rfl
    · rintro rfl; exact Matches.nil
  | cons c t ih =>
    obtain ⟨h1, h2, h3⟩ := ht c (by simp)
    have ht' : Literal t := fun x hx => ht x (by simp [hx])
    constructor
    · intro h
      cases h with
      | lit _ _ _ h => rw [(ih ht').1 h]
      | any => exact absurd rfl h1
      | star => exact absurd rfl h2
      | plus => exact absurd rfl h3
    · rintro rfl; exact Matches.lit h1 h2 h3 ((ih ht').2 rfl)

theorem matches_simple_append {p q s : Str} (hp : Simple p) :
    Matches (p ++ q) s ↔ ∃ a b, s = a ++ b ∧ Matches p a ∧ Matches q b := by
  induction p generalizing s with
  | nil =>
    constructor
    · intro h; exact ⟨[], s, rfl, Matches.nil, by simpa using h⟩
    · rintro ⟨a, b, rfl, hm, h⟩; cases hm; simpa using h
  | cons c p ih =>
    have hc := hp c (by simp)
    have hp' : Simple p := fun x hx => hp x (by simp [hx])
    rw [List.cons_append]
    constructor
    · intro h
      cases h with
      | lit h1 h2 h3 h =>
        obtain ⟨a, b, rfl, h4, h5⟩ := (ih hp').1 h
        exact ⟨_ :: a, b, rfl, Matches.lit h1 h2 h3 h4, h5⟩
      | any h =>
        obtain ⟨a, b, rfl, h4, h5⟩ := (ih hp').1 h
        exact ⟨_ :: a, b, rfl, Matches.any h4, h5⟩
      | star => exact absurd rfl hc.1
      | plus => exact absurd rfl hc.2
    · rintro ⟨a, b, rfl, h, hb⟩
      cases h with
      | lit h1 h2 h3 h => exact Matches.lit h1 h2 h3 ((ih hp').2 ⟨_, _, rfl, h, hb⟩)
      | any h => exact Matches.any ((ih hp').2 ⟨_, _, rfl, h, hb⟩)
      | star => exact absurd rfl hc.1
      | plus => exact absurd rfl hc.2

end Phosphor
