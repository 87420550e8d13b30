import Verif.Model.Format
import Mathlib.Tactic.IntervalCases
/-
Property C91: errors in formatting are reported.
-/
namespace Phosphor
namespace Fmt

/-! ### C91 Errors in formatting are reported -/

/-- A format that expands to the same text both times: that text, up to its first NUL. This is
`formatString` of the other properties. -/
theorem C91_text (t : Str) (h : (t.length : Int) < intMax) :
    formatString (.expands t) (.expands t) = .ok (Phosphor.formatString t) := by
  unfold formatString
  have h1 : (Call.expands t).ret = (t.length : Int) := rfl
  rw [h1, if_neg (by omega)]
  simp only
  rw [if_neg (by omega), if_neg (by omega), if_neg (by omega)]
  have : ((t.length : Int) + 1).toNat = t.length + 1 := by omega
  rw [this]
  simp [Call.stored, Phosphor.formatString]

/-- A format that cannot be expanded, whatever negative numbers the library returns: an exception,
never a text. -/
theorem C91_failure (r1 r2 : Int) (h1 : r1 < 0) (h2 : r2 < 0) :
    formatString (.fails r1 h1) (.fails r2 h2) = .throw .runtimeError := by
  unfold formatString
  have e1 : (Call.fails r1 h1).ret = r1 := rfl
  have e2 : (Call.fails r2 h2).ret = r2 := rfl
  rw [e1, e2, if_neg (by unfold intMax; omega)]
  simp only
  split
  · rfl
  · rw [if_pos (Or.inl h2)]

/-- If only the second call fails, an exception as well. -/
theorem C91_second (t : Str) (r : Int) (hr : r < 0) (h : (t.length : Int) < intMax) :
    formatString (.expands t) (.fails r hr) = .throw .runtimeError := by
  unfold formatString
  have e1 : (Call.expands t).ret = (t.length : Int) := rfl
  have e2 : (Call.fails r hr).ret = r := rfl
  rw [e1, e2, if_neg (by omega)]
  simp only
  rw [if_neg (by omega), if_pos (Or.inl hr)]

/-- If the arguments change between the two calls: the second text when it is no longer than the
first, an exception when it is longer by at least two bytes. -/
theorem C91_changed_partial (t u : Str) (h : (t.length : Int) < intMax) :
    (u.length ≤ t.length → formatString (.expands t) (.expands u) = .ok (Phosphor.formatString u)) ∧
    (t.length + 1 < u.length → formatString (.expands t) (.expands u) = .throw .runtimeError) := by
  have e1 : (Call.expands t).ret = (t.length : Int) := rfl
  have e2 : (Call.expands u).ret = (u.length : Int) := rfl
  have e3 : ((t.length : Int) + 1).toNat = t.length + 1 := by omega
  constructor
  · intro hu
    unfold formatString
    rw [e1, e2, if_neg (by omega)]
    simp only
    rw [if_neg (by omega), if_neg (by omega), if_neg (by omega), e3]
    simp only [Call.stored, Phosphor.formatString, Nat.add_sub_cancel]
    rw [List.take_of_length_le hu]
  · intro hu
    unfold formatString
    rw [e1, e2, if_neg (by omega)]
    simp only
    rw [if_neg (by omega), if_pos (by omega)]

/-- A text that is longer by one byte the second time loses that byte and no exception is raised:
the test is `>` where the buffer has room for one byte less than its size. -/
theorem C91_refuted_cut (t u : Str) (h : (t.length : Int) < intMax) (hu : u.length = t.length + 1) :
    formatString (.expands t) (.expands u) = .ok (Phosphor.formatString u.dropLast) := by
  have e1 : (Call.expands t).ret = (t.length : Int) := rfl
  have e2 : (Call.expands u).ret = (t.length : Int) + 1 := by simp [Call.ret, hu]
  have e3 : ((t.length : Int) + 1).toNat = t.length + 1 := by omega
  unfold formatString
  rw [e1, e2, if_neg (by omega)]
  simp only
  rw [if_neg (by omega), if_neg (by omega), if_neg (by omega), e3]
  simp only [Call.stored, Phosphor.formatString, List.dropLast_eq_take, hu]

example : formatString (.expands "arg=9".toList) (.expands "arg=10".toList) = .ok "arg=1".toList :=
  C91_refuted_cut "arg=9".toList "arg=10".toList (by decide) (by decide)

example : formatString (.fails (-1) (by decide)) (.fails (-1) (by decide)) = .throw .runtimeError := by
  decide

/-! ### Enumerators -/

theorem eventType_none {c : BitVec 8} : eventType c = none ↔ 7 ≤ c.toNat := by
  unfold eventType
  generalize c.toNat = n
  constructor
  · intro h
    by_contra hn
    have : n < 7 := by omega
    interval_cases n <;> simp at h
  · intro h
    split <;> first | omega | rfl

theorem argType_none {c : BitVec 8} : argType c = none ↔ 8 ≤ c.toNat := by
  unfold argType
  generalize c.toNat = n
  constructor
  · intro h
    by_contra hn
    have : n < 8 := by omega
    interval_cases n <;> simp at h
  · intro h
    split <;> first | omega | rfl

theorem argsLoop_valid {i : Nat} {n1 n2 : Option Str} {x y : TraceArg} {c d : BitVec 8} {a b : ArgType}
    (ha : argType c = some a) (hb : argType d = some b) :
    argsLoop i [(n1, x, c), (n2, y, d)] = Phosphor.argsLoop i [(n1, x, a), (n2, y, b)] := by
  unfold argsLoop Phosphor.argsLoop
  rw [ha]
  by_cases h1 : a = .isNone
  · rw [if_pos (by rw [h1]), if_pos h1]
  rw [if_neg (by simpa using h1), if_neg h1]
  have h2 : argsLoop (i + 1) [(n2, y, d)] = Phosphor.argsLoop (i + 1) [(n2, y, b)] := by
    unfold argsLoop Phosphor.argsLoop
    rw [hb]
    by_cases h3 : b = .isNone
    · rw [if_pos (by rw [h3]), if_pos h3]
    rw [if_neg (by simpa using h3), if_neg h3]
    cases n2 with
    | none => rfl
    | some n =>
      simp only [argJson, argToString, hb, argsLoop, Phosphor.argsLoop]
      cases y.toStr b <;> rfl
  rw [h2]
  cases n1 with
  | none => rfl
  | some n =>
    simp only [argJson, argToString, ha]
    cases x.toStr a <;> rfl

/-- Events with enumerators have the texts of the other properties. -/
theorem C91_enumerators (e : RawEvent) (t : EventType) (a b : ArgType) (pid : Int) (tid : BitVec 32)
    (ht : eventType e.type = some t) (ha : argType e.argTypes.1 = some a)
    (hb : argType e.argTypes.2 = some b) :
    e.toJson pid tid = (e.typed t a b).toJson pid tid ∧ e.toStr = (e.typed t a b).toStr := by
  constructor
  · unfold RawEvent.toJson Event.toJson RawEvent.typeToJson
    rw [ht]
    have h1 : (e.typed t .isNone .isNone).typeToJson = (e.typed t a b).typeToJson := rfl
    simp only
    rw [h1, argsLoop_valid ha hb]
    rfl
  · unfold RawEvent.toStr Event.toStr typeToString argToString
    rw [ht, ha, hb]
    rfl

/-- A type that is none of the seven: both texts are refused with `std::invalid_argument`, whatever
else the event holds. -/
theorem C91_type (e : RawEvent) (pid : Int) (tid : BitVec 32) (h : 7 ≤ e.type.toNat) :
    e.toJson pid tid = .throw .invalidArgument ∧ e.toStr = .throw .invalidArgument := by
  have := eventType_none.2 h
  constructor
  · unfold RawEvent.toJson RawEvent.typeToJson
    rw [this]; rfl
  · unfold RawEvent.toStr typeToString
    rw [this]; rfl

/-- A named first argument whose type is none of the eight, in an event whose phase can be shown:
refused. -/
theorem C91_first (e : RawEvent) (pid : Int) (tid : BitVec 32) (n : Str) (p : Str × Str)
    (ht : e.typeToJson = .ok p) (hn : e.argNames.1 = some n) (h : 8 ≤ e.argTypes.1.toNat) :
    e.toJson pid tid = .throw .invalidArgument := by
  have := argType_none.2 h
  unfold RawEvent.toJson
  rw [ht]
  simp only [Res.bind_ok, argsLoop, hn, argToString, this]
  rfl

/-- The same for a second argument, provided that the first one is shown; after an absent first
argument it is not looked at. -/
theorem C91_second_arg (e : RawEvent) (pid : Int) (tid : BitVec 32) (n m v : Str) (p : Str × Str)
    (ht : e.typeToJson = .ok p) (hn : e.argNames.1 = some n) (hm : e.argNames.2 = some m)
    (h1 : argType e.argTypes.1 ≠ some .isNone) (hv : argToString e.args.1 e.argTypes.1 = .ok v)
    (h : 8 ≤ e.argTypes.2.toNat) :
    e.toJson pid tid = .throw .invalidArgument := by
  have := argType_none.2 h
  unfold RawEvent.toJson
  rw [ht]
  simp only [Res.bind_ok, argsLoop, hn, hm, hv, if_neg h1]
  simp only [argToString, this]
  rfl

/-- An event of every kind of value. -/
def sample (type a b : BitVec 8) : RawEvent :=
  { category := "c".toList, name := "n".toList, type, argNames := (some "x".toList, some "y".toList),
    argTypes := (a, b), args := (.word 5#64, .word 6#64), time := 1500#64, duration := 0#64 }

example : (sample 4 2 1).toJson 1 2 = .ok ("{\"name\":\"n\",\"cat\":\"c\",\"ph\":\"i\",\"s\":\"t\"," ++
    "\"ts\":1.500,\"pid\":1,\"tid\":2,\"args\":{\"x\":5,\"y\":6}}").toList := by decide +kernel
example : (sample 7 2 1).toJson 1 2 = .throw .invalidArgument := (C91_type _ 1 2 (by decide)).1
example : (sample 4 8 1).toJson 1 2 = .throw .invalidArgument :=
  C91_first _ 1 2 _ _ rfl rfl (by decide)
example : (sample 4 2 255).toJson 1 2 = .throw .invalidArgument :=
  C91_second_arg _ 1 2 _ _ _ _ rfl rfl rfl (by decide) rfl (by decide)
example : (sample 4 7 255).toJson 1 2 = .ok ("{\"name\":\"n\",\"cat\":\"c\",\"ph\":\"i\",\"s\":\"t\"," ++
    "\"ts\":1.500,\"pid\":1,\"tid\":2,\"args\":{}}").toList := by decide +kernel

end Fmt
end Phosphor
