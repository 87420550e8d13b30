import Verif.Model.StringUtils
/-
Model of src/category_registry.cc, sequential view (each call runs to completion).
The concurrent view is in Model/CategoryRegistryConc.lean.
`CategoryStatus::Enabled/Disabled` (category_registry.h:29) is `true`/`false`.
-/
namespace Phosphor

/-- The first loop of `calculateEnabled` (category_registry.cc:68-79). -/
def enabledRelevant (categories enabled : List Str) : List Str :=
  categories.foldl (fun acc category =>
    if enabled.any (fun e => globMatch e category) then acc ++ [category] else acc) []

/-- The second loop of `calculateEnabled` (category_registry.cc:82-94). -/
def anyNotDisabled (disabled : List Str) : List Str → Bool
  | [] => false
  | category :: rest =>
    if disabled.any (fun e => globMatch e category) = false then true
    else anyNotDisabled disabled rest

/-- `calculateEnabled(group, enabled, disabled)` (category_registry.cc:61-95). -/
def calculateEnabled (group : Str) (enabled disabled : List Str) : Bool :=
  anyNotDisabled disabled (enabledRelevant (splitString group ',') enabled)

/-- `registry_size` (category_registry.h:45). -/
def registrySize : Nat := 250

/-- The data members of `CategoryRegistry` (category_registry.h:116-127), arrays as lists of
length `registrySize`. -/
structure Registry where
  groups : List Str
  statuses : List Bool
  count : Nat
  enabled : List Str
  disabled : List Str
  deriving DecidableEq

/-- Constructor (category_registry.cc:22-28). -/
def Registry.init : Registry where
  groups := ["default".toList, "category limit reached".toList, "__metadata".toList]
    ++ List.replicate (registrySize - 3) []
  statuses := List.replicate registrySize false
  count := 3
  enabled := []
  disabled := []

/-- Array read; outside the array is undefined behaviour. Code: `std::array::operator[]` on the
members of category_registry.h:118-124. -/
def readAt {α} (l : List α) (i : Nat) : Res α :=
  match l[i]? with
  | some a => .ok a
  | none => .ub

/-- Array write; outside the array is undefined behaviour. Code: `std::array::operator[]` on the
members of category_registry.h:118-124. -/
def writeAt {α} (l : List α) (i : Nat) (a : α) : Res (List α) :=
  if i < l.length then .ok (l.set i a) else .ub

/-- The search loops of `getStatus` (category_registry.cc:34-38 and 44-48), `k` iterations
from index `i`. `strcmp` compares C strings. -/
def scanGroups (groups : List Str) (name : Str) : Nat → Nat → Res (Option Nat)
  | _, 0 => .ok none
  | i, k + 1 =>
    match readAt groups i with
    | .ok g => if cstr g = cstr name then .ok (some i) else scanGroups groups name (i + 1) k
    | .throw e => .throw e
    | .ub => .ub

/-- `getStatus` (category_registry.cc:30-59); the result is the index of the returned status
cell. -/
def Registry.getStatus (r : Registry) (name : Str) : Res (Nat × Registry) := do
  match ← scanGroups r.groups name 0 r.count with
  | some i =>
    let _ ← readAt r.statuses i
    pure (i, r)
  | none =>
    match ← scanGroups r.groups name 0 r.count with
    | some i =>
      let _ ← readAt r.statuses i
      pure (i, r)
    | none =>
      if r.count < registrySize then
        let groups ← writeAt r.groups r.count (cstr name)
        let g ← readAt groups r.count
        let statuses ← writeAt r.statuses r.count (calculateEnabled g r.enabled r.disabled)
        pure (r.count, { r with groups, statuses, count := r.count + 1 })
      else
        let _ ← readAt r.statuses 1
        pure (1, r)

/-- Loop of `updateEnabled` (category_registry.cc:110-112), `k` iterations from `i`. -/
def updateLoop (groups : List Str) (e d : List Str) : Nat → Nat → List Bool → Res (List Bool)
  | _, 0, st => .ok st
  | i, k + 1, st => do
    let g ← readAt groups i
    let st ← writeAt st i (calculateEnabled g e d)
    updateLoop groups e d (i + 1) k st

/-- `updateEnabled` (category_registry.cc:102-113). -/
def Registry.updateEnabled (r : Registry) (e d : List Str) : Res Registry := do
  let statuses ← updateLoop r.groups e d 0 r.count r.statuses
  pure { r with enabled := e, disabled := d, statuses }

/-- Loop of `disableAll` (category_registry.cc:122-125). -/
def disableLoop : Nat → Nat → List Bool → Res (List Bool)
  | _, 0, st => .ok st
  | i, k + 1, st => do
    let st ← writeAt st i false
    disableLoop (i + 1) k st

/-- `disableAll` (category_registry.cc:115-126). `{{}}` is the list holding one empty
string. -/
def Registry.disableAll (r : Registry) : Res Registry := do
  let statuses ← disableLoop 0 r.count r.statuses
  pure { r with enabled := [[]], disabled := [[]], statuses }

/-- Reading a status cell through the reference returned by `getStatus`. Code:
phosphor-internal.h:96-98, category_registry.cc:55-57. -/
def Registry.cell (r : Registry) (i : Nat) : Res Bool := readAt r.statuses i

/-- The public operations of a registry. Code: category_registry.cc:30-126. -/
inductive RegOp
  | lookup (name : Str)
  | update (enabled disabled : List Str)
  | disable

/-- One call; lookups also return their cell. Code: category_registry.cc:30-126. -/
def Registry.step (r : Registry) : RegOp → Res (Option Nat × Registry)
  | .lookup n => do let (i, r) ← r.getStatus n; pure (some i, r)
  | .update e d => do let r ← r.updateEnabled e d; pure (none, r)
  | .disable => do let r ← r.disableAll; pure (none, r)

/-- A history of calls from the initial registry. Code: category_registry.cc:30-126. -/
def Registry.run (r : Registry) : List RegOp → Res Registry
  | [] => .ok r
  | op :: ops => do let (_, r) ← r.step op; r.run ops

end Phosphor
