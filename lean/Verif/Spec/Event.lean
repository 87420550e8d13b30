import Verif.Spec.Json
import Verif.Spec.Double
import Verif.Model.TraceEvent
import Mathlib.Data.List.Forall2
/-
What the JSON form of an event must denote, in the terms of the Trace Event Format, written
independently of how the library builds the text. Only the data types of the model are used.
-/
namespace Phosphor
open Json

/-- `q` is `x` rounded to a multiple of a millionth, ties to even. -/
def RoundsTo6 (x q : Rat) : Prop :=
  ∃ n : Int, q = n / 1000000 ∧ q - x ≤ 1 / 2000000 ∧ x - q ≤ 1 / 2000000 ∧
    ((q - x = 1 / 2000000 ∨ x - q = 1 / 2000000) → n % 2 = 0)

/-- Value of a lower-case hexadecimal digit string, most significant first. -/
def hexDigitsVal (s : Str) : Nat := s.foldl (fun n c => 16 * n + (hexVal c).getD 0) 0

/-- A lower-case hexadecimal digit. -/
def IsHexDigit (c : Char) : Prop := ('0' ≤ c ∧ c ≤ '9') ∨ ('a' ≤ c ∧ c ≤ 'f')

instance (c : Char) : Decidable (IsHexDigit c) := inferInstanceAs (Decidable (_ ∨ _))

/-- Joins with commas. -/
def commaJoin : List Str → Str
  | [] => []
  | [s] => s
  | s :: t => s ++ ',' :: commaJoin t

/-- `0x` and the hexadecimal digits of `n`. -/
def HexText (n : Nat) (s : Str) : Prop :=
  ∃ ds, s = '0' :: 'x' :: ds ∧ ds ≠ [] ∧ (∀ c ∈ ds, IsHexDigit c) ∧ hexDigitsVal ds = n

/-- A byte that may stand unescaped in a JSON string. -/
def PlainChar (c : Char) : Prop := 0x20 ≤ c.toNat ∧ c ≠ '"' ∧ c ≠ '\\'

instance (c : Char) : Decidable (PlainChar c) := inferInstanceAs (Decidable (_ ∧ _))

/-- `ArgDenotes t a v`: the JSON value `v` represents the argument `a` of type `t`. -/
inductive ArgDenotes : ArgType → TraceArg → JVal → Prop
  | bool (b : Bool) : ArgDenotes .isBool (.bool b) (.bool b)
  | int (w : BitVec 64) : ArgDenotes .isInt (.word w) (.num w.toInt)
  | uint (w : BitVec 64) : ArgDenotes .isUint (.word w) (.num w.toNat)
  | double {w x q} : f64Value w = some x → RoundsTo6 x q →
      ArgDenotes .isDouble (.word w) (.num q)
  | nullPtr : ArgDenotes .isPointer (.word 0#64) (.str ['0'])
  | ptr {w s} : w ≠ 0#64 → HexText w.toNat s → ArgDenotes .isPointer (.word w) (.str s)
  | string (addr : BitVec 64) (s : Str) : ArgDenotes .isString (.str addr s) (.str s)
  | istring {st : Str} {s r : Str} : st.length = 8 → '\x00' ∉ s →
      (st = s ∨ st = s ++ '\x00' :: r) → ArgDenotes .isIstring (.istr st) (.str s)

/-- The arguments shown for an event: those before the first absent one, with their names. -/
def presentArgs (e : Event) : List (Option Str × TraceArg × ArgType) :=
  if e.tpi.argTypes.1 = .isNone then []
  else if e.tpi.argTypes.2 = .isNone then [(e.tpi.argNames.1, e.args.1, e.tpi.argTypes.1)]
  else [(e.tpi.argNames.1, e.args.1, e.tpi.argTypes.1),
    (e.tpi.argNames.2, e.args.2, e.tpi.argTypes.2)]

/-- The member of the `args` object for one argument. -/
def ArgMember (a : Option Str × TraceArg × ArgType) (m : Str × JVal) : Prop :=
  a.1 = some m.1 ∧ ArgDenotes a.2.2 a.2.1 m.2

/-- Phase letter of the Trace Event Format. -/
def phase : EventType → Str
  | .asyncStart => ['b']
  | .asyncEnd => ['e']
  | .syncStart => ['B']
  | .syncEnd => ['E']
  | .instant => ['i']
  | .globalInstant => ['i']
  | .complete => ['X']

/-- The identifier of an asynchronous event. -/
def asyncId : TraceArg → Option Nat
  | .word w => some w.toNat
  | .str addr _ => some addr.toNat
  | _ => none

/-- The members required by some event types. -/
inductive Extras (e : Event) : List (Str × JVal) → Prop
  | id {n s} : e.tpi.type = .asyncStart ∨ e.tpi.type = .asyncEnd → asyncId e.args.1 = some n →
      HexText n s → Extras e [("id".toList, .str s)]
  | sync : e.tpi.type = .syncStart ∨ e.tpi.type = .syncEnd → Extras e []
  | scopeThread : e.tpi.type = .instant → Extras e [("s".toList, .str ['t'])]
  | scopeGlobal : e.tpi.type = .globalInstant → Extras e [("s".toList, .str ['g'])]
  | dur : e.tpi.type = .complete →
      Extras e [("dur".toList, .num ((e.duration.toInt : Rat) / 1000))]

/-- The JSON object that represents event `e` of thread `tid` in process `pid`. -/
def EventDenotes (e : Event) (pid : Int) (tid : BitVec 32) (v : JVal) : Prop :=
  ∃ extras args, Extras e extras ∧ List.Forall₂ ArgMember (presentArgs e) args ∧
    v = .obj ([("name".toList, .str e.tpi.name), ("cat".toList, .str e.tpi.category),
      ("ph".toList, .str (phase e.tpi.type))] ++ extras ++
      [("ts".toList, .num ((e.time.toInt : Rat) / 1000)), ("pid".toList, .num pid),
       ("tid".toList, .num tid.toNat), ("args".toList, .obj args)])

/-- Conditions under which one argument is represented correctly: the stored member is the
one its type names, strings contain nothing that needs escaping, doubles are finite. -/
def ArgRepresentable : ArgType → TraceArg → Prop
  | .isBool, .bool _ => True
  | .isInt, .word _ | .isUint, .word _ | .isPointer, .word _ => True
  | .isDouble, .word w => (f64Value w).isSome
  | .isString, .str _ s => ∀ c ∈ s, PlainChar c
  | .isIstring, .istr st => st.length = 8 ∧ ∀ c ∈ st.takeWhile (· ≠ '\x00'), PlainChar c
  | _, _ => False

/-- A string that `to_json` represents: no control characters other than the five with a
short escape. -/
def TextRepresentable (s : Str) : Prop :=
  ∀ c ∈ s, 0x20 ≤ c.toNat ∨ c = '\x08' ∨ c = '\x0c' ∨ c = '\n' ∨ c = '\r' ∨ c = '\t'

instance (s : Str) : Decidable (TextRepresentable s) := inferInstanceAs (Decidable (∀ _ ∈ _, _))

/-- A time or duration that is shown as a legal number. -/
def TimeRepresentable (x : BitVec 64) : Prop := 0 ≤ x.toInt ∨ (1000 : Int) ∣ x.toInt

instance (x : BitVec 64) : Decidable (TimeRepresentable x) := inferInstanceAs (Decidable (_ ∨ _))

/-- Conditions under which an event is represented correctly. -/
structure Representable (e : Event) : Prop where
  name : TextRepresentable e.tpi.name
  category : TextRepresentable e.tpi.category
  time : TimeRepresentable e.time
  duration : e.tpi.type = .complete → TimeRepresentable e.duration
  id : e.tpi.type = .asyncStart ∨ e.tpi.type = .asyncEnd → (asyncId e.args.1).isSome
  args : ∀ a ∈ presentArgs e, (∃ n, a.1 = some n ∧ TextRepresentable n) ∧
    ArgRepresentable a.2.2 a.2.1

end Phosphor
