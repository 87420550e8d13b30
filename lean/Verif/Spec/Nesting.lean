/-
Start and end events that belong together: independent of the log. A start and an end belong
together if everything between them is balanced. A viewer of a trace finds the pairs with a stack.
-/
namespace Phosphor.Nest

/-- What an entry of a trace does: it starts something, ends something, or neither. -/
inductive Side
  | opens | closes | plain
  deriving DecidableEq, Repr

/-- Every start has its end and every end its start. -/
inductive Balanced : List Side → Prop
  | nil : Balanced []
  | plain {w} (h : Balanced w) : Balanced (.plain :: w)
  | pair {m r} (hm : Balanced m) (hr : Balanced r) : Balanced (.opens :: (m ++ .closes :: r))

/-- The start at position `i` and the end at position `j` belong together. -/
def Partner (w : List Side) (i j : Nat) : Prop :=
  ∃ p m q, w = p ++ .opens :: (m ++ .closes :: q) ∧ Balanced m ∧ i = p.length ∧ j = p.length + m.length + 1

/-- What a viewer shows as one piece: an end goes with the latest start that has no end yet; an end
without such a start is left out. `st`: the starts that have no end yet, the latest first. -/
def view {α : Type} (side : α → Side) : List α → List α → List (α × α)
  | _, [] => []
  | st, a :: w =>
    match side a with
    | .opens => view side (a :: st) w
    | .plain => view side st w
    | .closes =>
      match st with
      | [] => view side [] w
      | x :: st => (x, a) :: view side st w

/-- The pairs a viewer shows, by position. -/
def pairs {α : Type} (side : α → Side) (w : List α) : List (Nat × Nat) :=
  (view (fun x : α × Nat => side x.1) [] w.zipIdx).map (fun p => (p.1.2, p.2.2))

end Phosphor.Nest
