import Verif.Model.Basic
/-
Model of src/utils/string_utils.cc and of the printf/std::to_string conversions used
by the library.
-/
namespace Phosphor

/-! ### Number formatting (standard library, assumed) -/

/-- `std::to_string` of an unsigned value; printf `%u`/`%llu` without width. Code: used in
export.cc:23-27, trace_event.cc:84-85. -/
def fmtNat (n : Nat) : Str := Nat.toDigits 10 n

/-- `std::to_string` of a signed value; printf `%d` / `%lld` without width. Code: trace_event.cc:59,
trace_event.cc:83, trace_event.cc:194. -/
def fmtInt (i : Int) : Str :=
  if i < 0 then '-' :: Nat.toDigits 10 i.natAbs else Nat.toDigits 10 i.natAbs

/-- Left-pad with zeros to a width. Code: trace_event.cc:59, trace_event.cc:83, trace_event.cc:194.
-/
def padZero (w : Nat) (s : Str) : Str := List.replicate (w - s.length) '0' ++ s

/-- printf `%0<w>lld` (trace_event.cc:59,83,194): zero padding to width `w`, the sign
counting towards the width. -/
def fmtIntPad (w : Nat) (i : Int) : Str :=
  if i < 0 then '-' :: padZero (w - 1) (Nat.toDigits 10 i.natAbs)
  else padZero w (Nat.toDigits 10 i.natAbs)

/-- printf `%" PRIxPTR "` (trace_event.cc:166,171): lower-case hexadecimal. -/
def fmtHex (n : Nat) : Str := Nat.toDigits 16 n

/-- The C string starting at the first byte of a buffer: everything before the first NUL. Code:
string_utils.cc:22-47, inline_zstring.h:55. -/
def cstr (s : Str) : Str := s.takeWhile (· ≠ '\x00')

/-- `format_string` (string_utils.cc:22-47). The printf expansion itself is given as an
argument (`expanded`); the function returns `buffer.data()` converted to `std::string`
(line 46), i.e. the expansion cut at its first NUL. The error paths for a failing
`vsnprintf` (lines 30-34, 37-42) are in Model/Format. -/
def formatString (expanded : Str) : Str := cstr expanded

/-! ### JSON escaping -/

/-- The `switch` of `escape_json` (string_utils.cc:54-82). -/
def escapeChar (c : Char) : Str :=
  if c = '"' then ['\\', '"']
  else if c = '/' then ['\\', '/']
  else if c = '\x08' then ['\\', 'b']
  else if c = '\x0c' then ['\\', 'f']
  else if c = '\n' then ['\\', 'n']
  else if c = '\r' then ['\\', 'r']
  else if c = '\t' then ['\\', 't']
  else if c = '\\' then ['\\', '\\']
  else [c]

/-- `escape_json` (string_utils.cc:49-86): the loop appends one escape per byte. -/
def escapeJson (input : Str) : Str :=
  input.foldl (fun output c => output ++ escapeChar c) []

/-- `to_json` (string_utils.cc:88-90). -/
def toJson (s : Str) : Str := ['"'] ++ escapeJson s ++ ['"']

/-! ### Splitting and joining -/

/-- State of the `std::stringstream` used by `split_string`: unread bytes and `eofbit`. Code:
string_utils.cc:92-104. -/
structure SStream where
  rest : Str
  eof : Bool
  deriving DecidableEq, Repr

/-- Extraction part of `std::getline`: the bytes before the delimiter, and what remains
after the (extracted, discarded) delimiter; `none` if the end was reached first. Code:
string_utils.cc:100. -/
def getlineScan (d : Char) : Str → Str × Option Str
  | [] => ([], none)
  | c :: cs =>
    if c = d then ([], some cs)
    else ((c :: (getlineScan d cs).1), (getlineScan d cs).2)

/-- `std::getline(ss, item, delim)` (used at string_utils.cc:100): `none` when the stream
converts to false afterwards (failbit), i.e. `eofbit` was already set or nothing could
be extracted. -/
def getline (d : Char) (ss : SStream) : Option (Str × SStream) :=
  if ss.eof then none
  else match getlineScan d ss.rest with
    | (item, some rest) => some (item, ⟨rest, false⟩)
    | (item, none) => if item = [] then none else some (item, ⟨[], true⟩)

/-- The `while (std::getline(...)) elems.push_back(item)` loop (string_utils.cc:100-102).
The fuel argument bounds the number of iterations; `splitString` passes one more than the
length of the string, which is always enough (proved: `splitLoop_fuel`). -/
def splitLoop (d : Char) : Nat → SStream → List Str → List Str
  | 0, _, elems => elems
  | fuel + 1, ss, elems =>
    match getline d ss with
    | none => elems
    | some (item, ss') => splitLoop d fuel ss' (elems ++ [item])

/-- `split_string` (string_utils.cc:92-104). -/
def splitString (s : Str) (d : Char) : List Str :=
  if s = [] then [[]]
  else splitLoop d (s.length + 1) ⟨s, false⟩ []

/-- `join_string` (string_utils.cc:106-118): append `str + delim` for each, then drop the
last byte. -/
def joinString (strs : List Str) (d : Char) : Str :=
  if strs.length = 0 then []
  else
    let result := strs.foldl (fun r s => r ++ (s ++ [d])) []
    result.take (result.length - 1)

/-! ### Replacing -/

/-- `std::string::find(from)` from position `i` on: smallest position `≥ i` of `s` at which
`from` occurs, `s` being the part starting at position `i`. Code: string_utils.cc:120-132. -/
def findFrom (pat : Str) : Nat → Str → Option Nat
  | i, [] => if pat = [] then some i else none
  | i, c :: cs => if pat.isPrefixOf (c :: cs) then some i else findFrom pat (i + 1) cs

/-- `string_replace` (string_utils.cc:120-132). -/
def stringReplace (s pat to : Str) : Str :=
  if pat = [] then s
  else match findFrom pat 0 s with
    | none => s
    | some pos => s.take pos ++ to ++ s.drop (pos + pat.length)

/-! ### Globbing -/

/-- The loop of `glob_match` (string_utils.cc:138-171). `rest` is the range from `iter` to
`match.end()`, `star` the flag of line 136 (never reset by the code). -/
def globLoop : Str → Str → Bool → Bool
  | [], rest, star => rest.isEmpty || star
  | c :: cs, rest, star =>
    let rest := if star then rest.dropWhile (fun x => c ≠ x) else rest
    if star && rest.isEmpty then false
    else if c = '?' then
      match rest with
      | [] => false
      | _ :: r => globLoop cs r star
    else if c = '*' then
      globLoop cs rest true
    else if c = '+' then
      match rest with
      | [] => false
      | _ :: r => globLoop cs r true
    else
      match rest with
      | [] => false
      | x :: r => if c ≠ x then false else globLoop cs r star

/-- `glob_match` (string_utils.cc:134-172). -/
def globMatch (glob subject : Str) : Bool := globLoop glob subject false

/-! ### Bounded strlen -/

/-- `strnlen_s` (string_utils.cc:174-186) on a non-null pointer to the bytes `s`:
`while (maxsize-- && *s++) count++`. Reading past the bytes of `s` is undefined. -/
def strnlenS : Str → Nat → Res Nat
  | _, 0 => .ok 0
  | [], _ + 1 => .ub
  | c :: cs, maxsize + 1 =>
    if c = '\x00' then .ok 0
    else match strnlenS cs maxsize with
      | .ok n => .ok (n + 1)
      | .throw e => .throw e
      | .ub => .ub

end Phosphor
