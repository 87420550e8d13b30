import Verif.Model.StringUtils
/-
Model of include/phosphor/inline_zstring.h.
-/
namespace Phosphor

/-- `inline_zstring(const char* s, size_t len)` (inline_zstring.h:61-65): `src` is the memory
readable from `s` on; the result is the storage `_s[max_length]`. `memcpy` past `src` is
undefined behaviour. -/
def izMake (maxLength : Nat) (src : Str) (len : Nat) : Res Str :=
  let copyLen := if len < maxLength then len else maxLength
  if copyLen ≤ src.length then
    .ok (src.take copyLen ++ List.replicate (maxLength - copyLen) '\x00')
  else .ub

/-- `inline_zstring(const std::string&)` and `(std::string_view)` (inline_zstring.h:41-50). -/
def izOfString (maxLength : Nat) (s : Str) : Res Str := izMake maxLength s s.length

/-- `strlen` on the memory `src`; undefined if it holds no NUL. Code: inline_zstring.h:55. -/
def strlen (src : Str) : Res Nat :=
  if '\x00' ∈ src then .ok (cstr src).length else .ub

/-- `inline_zstring(const char*)` (inline_zstring.h:55-56). -/
def izOfCString (maxLength : Nat) (src : Str) : Res Str := do
  let n ← strlen src
  izMake maxLength src n

/-- `operator std::string` (inline_zstring.h:70-72), and what `operator<<` writes
(inline_zstring.h:77-81). -/
def izToString (maxLength : Nat) (storage : Str) : Res Str :=
  match strnlenS storage maxLength with
  | .ok n => .ok (storage.take n)
  | .throw e => .throw e
  | .ub => .ub

end Phosphor
