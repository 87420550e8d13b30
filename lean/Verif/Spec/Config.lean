import Verif.Spec.Json
/-
What a configuration string means, independently of the parsing loop.
-/
namespace Phosphor

/-- `seg` is a `key:value` pair. A trailing `:` is tolerated, and required when the value is
empty. -/
def IsKV (seg k v : Str) : Prop :=
  ':' ∉ k ∧ ':' ∉ v ∧ ((v ≠ [] ∧ seg = k ++ ':' :: v) ∨ seg = k ++ ':' :: (v ++ [':']))

/-- C white space. -/
def Space (c : Char) : Prop :=
  c = ' ' ∨ c = '\t' ∨ c = '\n' ∨ c = '\x0b' ∨ c = '\x0c' ∨ c = '\r'

/-- `SizeText s n`: white space, an optional sign, decimal digits denoting `n` in the range
of a non-negative `int`, and then anything not starting with a digit. -/
inductive SizeText : Str → Nat → Prop
  | mk {ws sg ds rest : Str} {n : Nat} :
      (∀ c ∈ ws, Space c) →
      (sg = [] ∨ sg = ['+'] ∨ (sg = ['-'] ∧ n = 0)) →
      ds ≠ [] → (∀ c ∈ ds, Json.Digit c) →
      (∀ c, rest.head? = some c → ¬ Json.Digit c) →
      n = Json.digitsVal ds → n ≤ 2147483647 →
      SizeText (ws ++ sg ++ ds ++ rest) n

/-- Values allowed for the known keys. -/
def ValidKV (k v : Str) : Prop :=
  (k = "buffer-mode".toList → v = "fixed".toList ∨ v = "ring".toList) ∧
  (k = "buffer-size".toList → ∃ n, SizeText v n)

/-- The pieces are key-value pairs with allowed values. -/
inductive AllKV : List Str → List (Str × Str) → Prop
  | nil : AllKV [] []
  | cons {seg k v segs kvs} : IsKV seg k v → ValidKV k v → AllKV segs kvs →
      AllKV (seg :: segs) ((k, v) :: kvs)

/-- The value given last for a key. -/
def lastVal (key : Str) (kvs : List (Str × Str)) : Option Str :=
  ((kvs.filter (fun kv => kv.1 = key)).getLast?).map Prod.snd

end Phosphor
