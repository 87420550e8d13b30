import Verif.Model.Basic
/-
The glob language documented in src/utils/string_utils.h (`?` one character, `*` any
number, `+` one or more), as an inductive relation independent of the matching loop.
-/
namespace Phosphor.Glob

inductive Matches : Str → Str → Prop
  | nil : Matches [] []
  | lit {c p s} : c ≠ '?' → c ≠ '*' → c ≠ '+' → Matches p s → Matches (c :: p) (c :: s)
  | any {c p s} : Matches p s → Matches ('?' :: p) (c :: s)
  | star {a p s} : Matches p s → Matches ('*' :: p) (a ++ s)
  | plus {c a p s} : Matches p s → Matches ('+' :: p) (c :: a ++ s)

/-- Pattern without `*` and `+`. -/
def Simple (p : Str) : Prop := ∀ c ∈ p, c ≠ '*' ∧ c ≠ '+'

/-- Pattern without any special character. -/
def Literal (p : Str) : Prop := ∀ c ∈ p, c ≠ '?' ∧ c ≠ '*' ∧ c ≠ '+'

instance (p : Str) : Decidable (Simple p) := inferInstanceAs (Decidable (∀ _ ∈ _, _))
instance (p : Str) : Decidable (Literal p) := inferInstanceAs (Decidable (∀ _ ∈ _, _))

end Phosphor.Glob
