import Verif.Proof.Event
/-
Properties C25, C26, C54, C55, C56, C60, C61: events and their arguments.
-/
namespace Phosphor
open Json

/-! ### C25 Exported times are exact -/

/-- The number written for a time denotes exactly its nanoseconds in microseconds. Full claim:
for every time; missing: negative times that are not a multiple of a microsecond, for which
it is false (`C25_legal_iff`, `C25_refuted`). -/
theorem C25_exact_partial (x : BitVec 64) (h : TimeRepresentable x) :
    Number ((x.toInt : Rat) / 1000) (fmtMicros x) := by
  by_cases h0 : 0 ≤ x.toInt
  · exact fmtMicros_nonneg h0
  · exact fmtMicros_multiple (by omega) (h.resolve_left h0)

theorem legal_of_number {q : Rat} {s : Str} (h : Number q s) : Legal s :=
  ⟨.num q, [], s, [], ws_nil, Value.num h, ws_nil, by simp⟩

/-- The text is legal JSON exactly for the times of `C25_exact_partial`. -/
theorem C25_legal_iff (x : BitVec 64) : Legal (fmtMicros x) ↔ TimeRepresentable x := by
  constructor
  · intro h
    by_contra hn
    simp only [TimeRepresentable, not_or, Int.not_le] at hn
    exact fmtMicros_negative hn.1 hn.2 h
  · exact fun h => legal_of_number (C25_exact_partial x h)

/-- A time before the clock's epoch that is not a whole microsecond: `-1.-500`. -/
theorem C25_refuted : ∃ x : BitVec 64, fmtMicros x = "-1.-500".toList ∧ ¬ Legal (fmtMicros x) := by
  refine ⟨BitVec.ofInt 64 (-1500), by decide, ?_⟩
  rw [C25_legal_iff]; decide

example : fmtMicros 1234567#64 = "1234.567".toList ∧ TimeRepresentable 1234567#64 := by decide
example : fmtMicros 1000007#64 = "1000.007".toList := by decide

/-! ### C26 Event JSON is well formed and faithful -/

/-- The JSON form of an event parses as the object that represents it. Full claim: for every
event; missing: events that are not `Representable` (unescaped string arguments, control
characters in names, non-finite doubles, negative times), for which it is false
(`C26_refuted_quote`, `C26_refuted_injection`, `C26_refuted_double`). -/
theorem C26_event_json_partial (e : Event) (pid : Int) (tid : BitVec 32) (h : Representable e) :
    ∃ s v, e.toJson pid tid = .ok s ∧ Value v s ∧ EventDenotes e pid tid v := by
  obtain ⟨x, ms, ht, hx, hxm⟩ := typeToJson_spec e h.duration h.id C25_exact_partial
  obtain ⟨as, ams, ha, hav, haf⟩ := argsLoop_members e h.args
  have m1 : Member ("name".toList, .str e.tpi.name) ("\"name\":".toList ++ toJson e.tpi.name) :=
    member_mk (ks := "\"name\"".toList) (isString_plain (s := "name".toList) (by decide))
      (Value.str (isString_toJson h.name))
  have m2 : Member ("cat".toList, .str e.tpi.category)
      ("\"cat\":".toList ++ toJson e.tpi.category) :=
    member_mk (ks := "\"cat\"".toList) (isString_plain (s := "cat".toList) (by decide))
      (Value.str (isString_toJson h.category))
  have m3 : Member ("ph".toList, .str (phase e.tpi.type))
      ("\"ph\":\"".toList ++ phase e.tpi.type ++ "\"".toList) := by
    have := member_mk (ks := "\"ph\"".toList) (isString_plain (s := "ph".toList) (by decide))
      (Value.str (isString_plain (s := phase e.tpi.type) (by cases e.tpi.type <;> decide)))
    simpa using this
  have m4 : Member ("ts".toList, .num ((e.time.toInt : Rat) / 1000))
      ("\"ts\":".toList ++ fmtMicros e.time) :=
    member_mk (ks := "\"ts\"".toList) (isString_plain (s := "ts".toList) (by decide))
      (Value.num (C25_exact_partial _ h.time))
  have m5 : Member ("pid".toList, .num pid) ("\"pid\":".toList ++ fmtInt pid) :=
    member_mk (ks := "\"pid\"".toList) (isString_plain (s := "pid".toList) (by decide))
      (Value.num (number_fmtInt pid))
  have m6 : Member ("tid".toList, .num tid.toNat) ("\"tid\":".toList ++ fmtNat tid.toNat) :=
    member_mk (ks := "\"tid\"".toList) (isString_plain (s := "tid".toList) (by decide))
      (Value.num (number_fmtNat tid.toNat))
  have m7 : Member ("args".toList, .obj ams) ("\"args\":{".toList ++ as ++ "}".toList) := by
    have := member_mk (ks := "\"args\"".toList) (isString_plain (s := "args".toList) (by decide)) hav
    simpa using this
  have hm123 := Members.cons m1 (Members.cons m2 (Members.one m3))
  have hm4567 := Members.cons m4 (Members.cons m5 (Members.cons m6 (Members.one m7)))
  have hall : Members ([("name".toList, .str e.tpi.name), ("cat".toList, .str e.tpi.category),
      ("ph".toList, .str (phase e.tpi.type))] ++ ms ++
      [("ts".toList, .num ((e.time.toInt : Rat) / 1000)), ("pid".toList, .num pid),
       ("tid".toList, .num tid.toNat), ("args".toList, .obj ams)])
      ("\"name\":".toList ++ toJson e.tpi.name ++ ",\"cat\":".toList ++ toJson e.tpi.category
        ++ ",\"ph\":\"".toList ++ phase e.tpi.type ++ "\"".toList ++ x
        ++ ",\"ts\":".toList ++ fmtMicros e.time ++ ",\"pid\":".toList ++ fmtInt pid
        ++ ",\"tid\":".toList ++ fmtNat tid.toNat ++ ",\"args\":{".toList ++ as ++ "}".toList) := by
    rcases hxm with ⟨rfl, rfl⟩ | ⟨t, rfl, hmt⟩
    · have := members_append hm123 hm4567
      simpa using this
    · have := members_append (members_append hm123 hmt) hm4567
      simpa using this
  refine ⟨_, _, ?_, Value.obj hall, ms, ams, hx, haf, rfl⟩
  simp [Event.toJson, ht, ha]

/-- A well-typed event never reads the wrong union member or a null name, so its JSON form
exists whatever the strings and numbers in it. -/
theorem C26_total (e : Event) (pid : Int) (tid : BitVec 32)
    (hid : e.tpi.type = .asyncStart ∨ e.tpi.type = .asyncEnd → (asyncId e.args.1).isSome)
    (hargs : ∀ a ∈ presentArgs e, a.1 ≠ none ∧ ∃ s, a.2.1.toStr a.2.2 = .ok s) :
    ∃ s, e.toJson pid tid = .ok s := by
  have ht : ∃ t, e.typeToJson = .ok t := by
    unfold Event.typeToJson
    cases hty : e.tpi.type <;> simp only
    case asyncStart =>
      have := hid (Or.inl hty)
      cases ha : e.args.1 <;> rw [ha] at this <;> simp [asyncId, TraceArg.asWord] at *
    case asyncEnd =>
      have := hid (Or.inr hty)
      cases ha : e.args.1 <;> rw [ha] at this <;> simp [asyncId, TraceArg.asWord] at *
    all_goals exact ⟨_, rfl⟩
  obtain ⟨t, ht⟩ := ht
  have hl : ∃ s, argsLoop 0 [(e.tpi.argNames.1, e.args.1, e.tpi.argTypes.1),
      (e.tpi.argNames.2, e.args.2, e.tpi.argTypes.2)] = .ok s := by
    have hj : ∀ a ∈ presentArgs e, ∃ s, argJson a.1 a.2.1 a.2.2 = .ok s := by
      intro a ha
      obtain ⟨h1, s, hs⟩ := hargs a ha
      cases hn : a.1 with
      | none => exact absurd hn h1
      | some n => exact ⟨_, by simp [argJson, hs]; rfl⟩
    rw [argsLoop_eq]
    have hlen : presentArgs e = [] ∨ (∃ a, presentArgs e = [a]) ∨
        ∃ a b, presentArgs e = [a, b] := by
      unfold presentArgs
      split
      · simp
      · split <;> simp
    rcases hlen with hp | ⟨a, hp⟩ | ⟨a, b, hp⟩ <;> rw [hp] at hj ⊢ <;> simp only
    · exact ⟨_, rfl⟩
    · exact hj a (by simp)
    · obtain ⟨s, hs⟩ := hj a (by simp)
      obtain ⟨s', hs'⟩ := hj b (by simp)
      exact ⟨_, by simp [hs, hs']; rfl⟩
  obtain ⟨s, hl⟩ := hl
  exact ⟨_, by simp only [Event.toJson, ht, hl, Res.bind_ok]; rfl⟩

/-- An ordinary event with a string and an integer argument. -/
def exampleEvent : Event :=
  { tpi := { category := "cat".toList, name := "na/me".toList, type := .complete,
             argNames := (some "x".toList, some "y".toList), argTypes := (.isString, .isInt) },
    args := (.str 0x1000#64 "hello".toList, .word (BitVec.ofInt 64 (-5))),
    time := 1234567#64, duration := 89#64 }

theorem exampleEvent_json : exampleEvent.toJson 42 7#32 = .ok
    ("{\"name\":\"na\\/me\",\"cat\":\"cat\",\"ph\":\"X\",\"dur\":0.089,\"ts\":1234.567," ++
      "\"pid\":42,\"tid\":7,\"args\":{\"x\":\"hello\",\"y\":-5}}").toList := by decide

theorem exampleEvent_representable : Representable exampleEvent where
  name := by decide
  category := by decide
  time := by decide
  duration := by decide
  id := by decide
  args := by
    intro a ha
    have hp : presentArgs exampleEvent = [(some "x".toList, .str 0x1000#64 "hello".toList, .isString),
      (some "y".toList, .word (BitVec.ofInt 64 (-5)), .isInt)] := rfl
    rw [hp, List.mem_cons, List.mem_cons] at ha
    rcases ha with rfl | rfl | ha
    · exact ⟨⟨_, rfl, by decide⟩, by simp only [ArgRepresentable]; decide⟩
    · exact ⟨⟨_, rfl, by decide⟩, trivial⟩
    · cases ha

/-- An event with one string argument. -/
def stringEvent (s : Str) : Event :=
  { tpi := { category := "c".toList, name := "n".toList, type := .syncStart,
             argNames := (some "x".toList, some []), argTypes := (.isString, .isNone) },
    args := (.str 0x1000#64 s, .none), time := 0#64, duration := 0#64 }

/-- String arguments are not escaped: a quote makes the JSON illegal. -/
theorem C26_refuted_quote : ∃ s, (stringEvent ['"']).toJson 1 1#32 = .ok s ∧ ¬ Legal s :=
  ⟨_, rfl, not_legal (by decide)⟩

/-- A string argument can inject members: the JSON is legal but denotes another event. -/
theorem C26_refuted_injection :
    ∃ s v, (stringEvent "a\",\"b\":\"c".toList).toJson 1 1#32 = .ok s ∧ Value v s ∧
      ¬ EventDenotes (stringEvent "a\",\"b\":\"c".toList) 1 1#32 v := by
  have hs : (stringEvent "a\",\"b\":\"c".toList).toJson 1 1#32 = .ok
    ("{\"name\":\"n\",\"cat\":\"c\",\"ph\":\"B\",\"ts\":0.000,\"pid\":1,\"tid\":1," ++
      "\"args\":{\"x\":\"a\",\"b\":\"c\"}}").toList := by decide
  have plain : ∀ (k t : Str) (v : JVal) (s : Str), t = '"' :: (k ++ ['"']) → (∀ c ∈ k, PlainChar c) →
      Value v s → Member (k, v) (t ++ ':' :: s) := by
    intro k t v s ht hk hv; subst ht; exact member_mk (isString_plain hk) hv
  have str : ∀ (k t : Str), t = '"' :: (k ++ ['"']) → (∀ c ∈ k, PlainChar c) → Value (.str k) t := by
    intro k t ht hk; subst ht; exact Value.str (isString_plain hk)
  have v0 := fmtMicros_nonneg (x := 0#64) (by decide)
  refine ⟨_, .obj [("name".toList, .str "n".toList), ("cat".toList, .str "c".toList),
    ("ph".toList, .str "B".toList), ("ts".toList, .num (((0#64).toInt : Rat) / 1000)),
    ("pid".toList, .num ((1 : Nat) : Rat)), ("tid".toList, .num ((1 : Nat) : Rat)),
    ("args".toList, .obj [("x".toList, .str "a".toList), ("b".toList, .str "c".toList)])],
    hs, ?_, ?_⟩
  · have := Value.obj
      (Members.cons (plain "name".toList "\"name\"".toList _ "\"n\"".toList (by decide) (by decide)
        (str "n".toList _ (by decide) (by decide)))
      (Members.cons (plain "cat".toList "\"cat\"".toList _ "\"c\"".toList (by decide) (by decide)
        (str "c".toList _ (by decide) (by decide)))
      (Members.cons (plain "ph".toList "\"ph\"".toList _ "\"B\"".toList (by decide) (by decide)
        (str "B".toList _ (by decide) (by decide)))
      (Members.cons (plain "ts".toList "\"ts\"".toList _ _ (by decide) (by decide)
        (Value.num v0))
      (Members.cons (plain "pid".toList "\"pid\"".toList _ "1".toList (by decide) (by decide)
        (Value.num (number_fmtNat 1)))
      (Members.cons (plain "tid".toList "\"tid\"".toList _ "1".toList (by decide) (by decide)
        (Value.num (number_fmtNat 1)))
      (Members.one (plain "args".toList "\"args\"".toList _ _ (by decide) (by decide)
        (Value.obj
          (Members.cons (plain "x".toList "\"x\"".toList _ "\"a\"".toList (by decide) (by decide)
            (str "a".toList _ (by decide) (by decide)))
          (Members.one (plain "b".toList "\"b\"".toList _ "\"c\"".toList (by decide) (by decide)
            (str "c".toList _ (by decide) (by decide))))))))))))))
    exact this
  · rintro ⟨extras, args, hx, hf, hv⟩
    have hl := hf.length_eq
    have he : extras = [] := by
      cases hx with
      | id h => rcases h with h | h <;> cases h
      | sync h => rfl
      | scopeThread h => cases h
      | scopeGlobal h => cases h
      | dur h => cases h
    subst he
    simp only [List.append_nil, List.cons_append, List.nil_append, JVal.obj.injEq, List.cons.injEq,
      Prod.mk.injEq, true_and, and_true] at hv
    rw [← hv.2.2.2.2.2.2] at hl
    simp [presentArgs, stringEvent] at hl

/-- The text of a string argument denotes the string iff nothing in it needs escaping. -/
theorem C26_string_arg_iff (addr : BitVec 64) (s : Str) :
    (∃ t, (TraceArg.str addr s).toStr .isString = .ok t ∧ Value (.str s) t) ↔
      ∀ c ∈ s, PlainChar c := by
  constructor
  · rintro ⟨t, ht, hv⟩
    cases ht
    cases hv with
    | str h => exact isString_self_iff.1 (by simpa using h)
  · intro h
    exact ⟨_, rfl, Value.str (isString_plain h)⟩

/-! ### C54 Floating point arguments -/

/-- A finite `double` or `float` argument is exported as a JSON number that is its value
rounded to six decimals, ties to even. -/
theorem C54_double_finite (w : BitVec 64) (x : Rat) (h : f64Value w = some x) :
    ∃ s q, (CVal.double w).asArgument.toStr (CVal.double w).getType = .ok s ∧
      Number q s ∧ RoundsTo6 x q := by
  obtain ⟨q, hq, hn⟩ := fmtDouble_rounds h
  exact ⟨_, q, rfl, hn, hq⟩

theorem C54_float_finite (w : BitVec 32) (x : Rat) (h : f32Value w = some x) :
    ∃ s q, (CVal.float w).asArgument.toStr (CVal.float w).getType = .ok s ∧
      Number q s ∧ RoundsTo6 x q := by
  rw [← f64Value_fltToDbl] at h
  obtain ⟨q, hq, hn⟩ := fmtDouble_rounds h
  exact ⟨_, q, rfl, hn, hq⟩

/-- The text is legal JSON exactly for finite values. -/
theorem C54_legal_iff (w : BitVec 64) :
    ∃ s, (CVal.double w).asArgument.toStr (CVal.double w).getType = .ok s ∧
      (Legal s ↔ (f64Value w).isSome) := by
  refine ⟨_, rfl, ?_⟩
  constructor
  · intro hl
    rw [f64_isSome_iff]
    exact fun h => fmtDouble_nonfinite h hl
  · intro h
    obtain ⟨x, hx⟩ := Option.isSome_iff_exists.1 h
    obtain ⟨q, _, hn⟩ := fmtDouble_rounds hx
    exact legal_of_number hn

theorem C54_float_legal_iff (w : BitVec 32) :
    ∃ s, (CVal.float w).asArgument.toStr (CVal.float w).getType = .ok s ∧
      (Legal s ↔ (f32Value w).isSome) := by
  rw [← f64Value_fltToDbl]
  exact C54_legal_iff (fltToDbl w)

/-- The rounded value is unique, so the text's value is determined. -/
theorem RoundsTo6_unique {x q q' : Rat} (h : RoundsTo6 x q) (h' : RoundsTo6 x q') : q = q' := by
  obtain ⟨n, rfl, h1, h2, h3⟩ := h
  obtain ⟨n', rfl, h1', h2', h3'⟩ := h'
  have d1 : ((n - n' : Int) : Rat) ≤ 1 := by push_cast; linarith
  have d2 : ((n' - n : Int) : Rat) ≤ 1 := by push_cast; linarith
  have d1 : n - n' ≤ 1 := by exact_mod_cast d1
  have d2 : n' - n ≤ 1 := by exact_mod_cast d2
  have : n = n' := by
    by_contra hne
    have hc : n = n' + 1 ∨ n' = n + 1 := by omega
    rcases hc with rfl | rfl
    · push_cast at *
      have e1 : ((n' : Rat) + 1) / 1000000 - x = 1 / 2000000 := by linarith
      have e2 : x - (n' : Rat) / 1000000 = 1 / 2000000 := by linarith
      have := h3 (Or.inl e1); have := h3' (Or.inr e2); omega
    · push_cast at *
      have e1 : ((n : Rat) + 1) / 1000000 - x = 1 / 2000000 := by linarith
      have e2 : x - (n : Rat) / 1000000 = 1 / 2000000 := by linarith
      have := h3' (Or.inl e1); have := h3 (Or.inr e2); omega
  rw [this]

-- 1.5, -0.0, infinity
example : fmtDouble 0x3FF8000000000000#64 = "1.500000".toList := by decide +kernel
example : fmtDouble 0x8000000000000000#64 = "-0.000000".toList := by decide +kernel
example : fmtDouble 0x7FF0000000000000#64 = "inf".toList := by decide +kernel
example : (f64Value 0x3FF8000000000000#64).isSome = true := by
  rw [f64_isSome_iff]; decide +kernel
-- 3 * 2^-7 = 0.0234375 exactly seven decimals, a tie going to the even neighbour
example : fmtDouble 0x3F98000000000000#64 = "0.023438".toList := by decide +kernel
-- smallest float
example : fltToDbl 1#32 = 0x36A0000000000000#64 := by decide +kernel

/-- An event with an infinite argument. -/
def doubleEvent : Event :=
  { tpi := { category := "c".toList, name := "n".toList, type := .syncStart,
             argNames := (some "x".toList, some []), argTypes := (.isDouble, .isNone) },
    args := (.word 0x7FF0000000000000#64, .none), time := 0#64, duration := 0#64 }

/-- A non-finite double makes the whole event illegal JSON. -/
theorem C26_refuted_double : ∃ (s : Str), doubleEvent.toJson 1 1#32 = .ok s ∧ ¬ Legal s := by
  refine ⟨("{\"name\":\"n\",\"cat\":\"c\",\"ph\":\"B\",\"ts\":0.000,\"pid\":1,\"tid\":1," ++
      "\"args\":{\"x\":inf}}").toList, by decide +kernel, not_legal (by decide)⟩

/-! ### C55 Integral, boolean and pointer arguments -/

/-- The value of an integer of any supported type. -/
def CVal.intVal : CVal → Option Int
  | .char x => some x.toInt
  | .short x => some x.toInt
  | .int x => some x.toInt
  | .long x => some x.toInt
  | .longLong x => some x.toInt
  | .uchar x => some x.toNat
  | .ushort x => some x.toNat
  | .uint x => some x.toNat
  | .ulong x => some x.toNat
  | .ulongLong x => some x.toNat
  | _ => Option.none

/-- `s` is the decimal representation of `i`. -/
def IsDecimal (i : Int) (s : Str) : Prop :=
  (0 ≤ i ∧ IsInt s ∧ (digitsVal s : Int) = i) ∨
  (i < 0 ∧ ∃ t, s = '-' :: t ∧ IsInt t ∧ -(digitsVal t : Int) = i)

theorem isDecimal_fmtInt (i : Int) : IsDecimal i (fmtInt i) := by
  unfold fmtInt
  split
  · right
    exact ⟨by omega, _, rfl, isInt_toDigits _, by rw [digitsVal_toDigits]; omega⟩
  · left
    exact ⟨by omega, isInt_toDigits _, by rw [digitsVal_toDigits]; omega⟩

theorem isDecimal_fmtNat (n : Nat) : IsDecimal n (fmtNat n) := by
  left
  exact ⟨by omega, isInt_toDigits _, by rw [fmtNat, digitsVal_toDigits]⟩

theorem C55_integer (v : CVal) (i : Int) (h : v.intVal = some i) :
    ∃ s, v.asArgument.toStr v.getType = .ok s ∧ IsDecimal i s ∧ Value (.num i) s := by
  have hs : ∀ {w : Nat} (x : BitVec w), w ≤ 64 → ∃ s,
      (TraceArg.word (x.signExtend 64)).toStr .isInt = .ok s ∧ IsDecimal x.toInt s ∧
        Value (.num x.toInt) s := by
    intro w x hw
    refine ⟨fmtInt x.toInt, ?_, isDecimal_fmtInt _, Value.num (number_fmtInt _)⟩
    simp [TraceArg.toStr, TraceArg.asWord, BitVec.toInt_signExtend_of_le hw]
  have hu : ∀ {w : Nat} (x : BitVec w), w ≤ 64 → ∃ s,
      (TraceArg.word (x.zeroExtend 64)).toStr .isUint = .ok s ∧ IsDecimal x.toNat s ∧
        Value (.num ((x.toNat : Int) : Rat)) s := by
    intro w x hw
    refine ⟨fmtNat x.toNat, ?_, isDecimal_fmtNat _, ?_⟩
    · simp only [TraceArg.toStr, TraceArg.asWord, Res.bind_ok]
      rw [BitVec.zeroExtend, BitVec.toNat_setWidth_of_le hw]
    · simpa using Value.num (number_fmtNat x.toNat)
  cases v <;> simp only [CVal.intVal, Option.some.injEq, reduceCtorEq] at h <;> subst h <;>
    first | exact hs _ (by omega) | exact hu _ (by omega)

theorem C55_bool (b : Bool) :
    ∃ s, (CVal.bool b).asArgument.toStr (CVal.bool b).getType = .ok s ∧
      s = (if b then "true".toList else "false".toList) ∧ Value (.bool b) s := by
  cases b
  · exact ⟨_, rfl, rfl, Value.false⟩
  · exact ⟨_, rfl, rfl, Value.true⟩

/-- Pointers: a quoted hexadecimal address (`"0"` for null). -/
theorem C55_pointer (p : BitVec 64) :
    ∃ s t, (CVal.ptr p).asArgument.toStr (CVal.ptr p).getType = .ok s ∧
      s = '"' :: (t ++ ['"']) ∧ (if p = 0#64 then t = ['0'] else HexText p.toNat t) ∧
      Value (.str t) s := by
  obtain ⟨s, v, h1, h2, h3⟩ := argStr_denotes (t := .isPointer) (a := .word p) trivial
  refine ⟨s, fmtPointer p, h1, by cases h1; simp, ?_⟩
  have hfmt : s = '"' :: (fmtPointer p ++ ['"']) := by cases h1; simp
  by_cases hp : p = 0#64
  · subst hp
    exact ⟨by rw [if_pos rfl]; rfl, hfmt ▸ Value.str (isString_plain (by decide))⟩
  · have h0 : p.toNat ≠ 0 := fun h0 => hp (by apply BitVec.eq_of_toNat_eq; simpa using h0)
    have ht : HexText p.toNat (fmtPointer p) := by
      rw [fmtPointer, if_neg h0]; exact hexText_fmtHex _
    exact ⟨by rw [if_neg hp]; exact ht, hfmt ▸ Value.str (isString_plain (hexText_plain ht))⟩

theorem C55_nullptr : (CVal.nullptr).asArgument.toStr (CVal.nullptr).getType
    = .ok "\"0\"".toList := rfl

/-- An inline string argument shows the characters before its first NUL. -/
theorem C55_istring (st s : Str) (h : st.length = 8)
    (hs : s = st ∨ ∃ r, st = s ++ '\x00' :: r) (hn : '\x00' ∉ s) :
    (CVal.istring st).asArgument.toStr (CVal.istring st).getType
      = .ok ('"' :: (s ++ ['"'])) := by
  have hc : cstr st = s := by
    rcases hs with rfl | ⟨r, rfl⟩
    · exact cstr_of_free hn
    · rw [cstr_append_nul, cstr_of_free hn]
  show TraceArg.toStr (.istr st) .isIstring = _
  simp [TraceArg.toStr, izToString_eq h, hc]

example : (CVal.char 0xFF#8).asArgument.toStr (CVal.char 0xFF#8).getType = .ok "-1".toList := by decide
example : (CVal.uchar 0xFF#8).asArgument.toStr (CVal.uchar 0xFF#8).getType = .ok "255".toList := by decide
example : (CVal.ptr 0xdeadbeef#64).asArgument.toStr .isPointer = .ok "\"0xdeadbeef\"".toList := by decide

/-! ### C56 Asynchronous ids pair up -/

/-- The extra member text of an asynchronous event. -/
theorem C56_ids (a b : Event) (i j : Nat)
    (ha : a.tpi.type = .asyncStart) (hb : b.tpi.type = .asyncEnd)
    (hi : asyncId a.args.1 = some i) (hj : asyncId b.args.1 = some j) :
    ∃ x y, a.typeToJson = .ok (['b'], x) ∧ b.typeToJson = .ok (['e'], y) ∧ (x = y ↔ i = j) := by
  have key : ∀ (t : TraceArg) (n : Nat), asyncId t = some n →
      ∃ w, t.asWord = .ok w ∧ w.toNat = n := by
    intro t n h
    cases t <;> simp [asyncId] at h
    · exact ⟨_, rfl, h⟩
    · exact ⟨_, rfl, h⟩
  obtain ⟨w, hw, rfl⟩ := key _ _ hi
  obtain ⟨w', hw', rfl⟩ := key _ _ hj
  refine ⟨_, _, by simp only [Event.typeToJson, ha, hw, Res.bind_ok]; rfl,
    by simp only [Event.typeToJson, hb, hw', Res.bind_ok]; rfl, ?_⟩
  constructor
  · intro h
    have := List.append_cancel_right (List.append_cancel_left
      (by simpa only [List.append_assoc] using h))
    exact fmtHex_injective this
  · intro h; rw [h]

/-- The id of an integer argument is its value modulo 2^64. -/
theorem C56_id_of_integer (v : CVal) (i : Int) (h : v.intVal = some i) :
    asyncId v.asArgument = some (i % 2 ^ 64).toNat := by
  have hs : ∀ {w : Nat} (x : BitVec w), w ≤ 64 →
      asyncId (.word (x.signExtend 64)) = some (x.toInt % 2 ^ 64).toNat := by
    intro w x hw
    simp only [asyncId, Option.some.injEq]
    rw [BitVec.signExtend, BitVec.toNat_ofInt]; rfl
  have hu : ∀ {w : Nat} (x : BitVec w), w ≤ 64 →
      asyncId (.word (x.zeroExtend 64)) = some ((x.toNat : Int) % 2 ^ 64).toNat := by
    intro w x hw
    simp only [asyncId, Option.some.injEq, BitVec.zeroExtend, BitVec.toNat_setWidth]
    omega
  cases v <;> simp only [CVal.intVal, Option.some.injEq, reduceCtorEq] at h <;> subst h <;>
    first | exact hs _ (by omega) | exact hu _ (by omega)

example : asyncId (CVal.int 5#32).asArgument = asyncId (CVal.ulong 5#64).asArgument := by decide
/-- Ids of equal bits but different signedness differ: `-1` as `int` and `4294967295`. -/
example : asyncId (CVal.int 0xFFFFFFFF#32).asArgument ≠ asyncId (CVal.uint 0xFFFFFFFF#32).asArgument := by
  decide

/-! ### C60 Argument lists stop at the first absent argument -/

/-- The `args` text is `"name":value` for the arguments before the first absent one, separated
by commas; the JSON form is defined iff those have a name and a printable value. -/
theorem C60_args (e : Event) (pid : Int) (tid : BitVec 32) (s : Str) :
    e.toJson pid tid = .ok s ↔
      ∃ ph extras texts, e.typeToJson = .ok (ph, extras) ∧
        List.Forall₂ (fun (a : Option Str × TraceArg × ArgType) (t : Str) =>
          ∃ n v, a.1 = some n ∧ a.2.1.toStr a.2.2 = .ok v ∧ t = toJson n ++ ':' :: v)
          (presentArgs e) texts ∧
        s = "{\"name\":".toList ++ toJson e.tpi.name ++ ",\"cat\":".toList ++ toJson e.tpi.category
          ++ ",\"ph\":\"".toList ++ ph ++ "\"".toList ++ extras
          ++ ",\"ts\":".toList ++ fmtMicros e.time ++ ",\"pid\":".toList ++ fmtInt pid
          ++ ",\"tid\":".toList ++ fmtNat tid.toNat
          ++ ",\"args\":{".toList ++ commaJoin texts ++ "}}".toList := by
  have hj : ∀ (a : Option Str × TraceArg × ArgType) (t : Str), argJson a.1 a.2.1 a.2.2 = .ok t ↔
      ∃ n v, a.1 = some n ∧ a.2.1.toStr a.2.2 = .ok v ∧ t = toJson n ++ ':' :: v := by
    rintro ⟨n, a, ty⟩ t
    cases n with
    | none => simp [argJson]
    | some n =>
      simp only [argJson]
      cases ha : a.toStr ty <;> simp [eq_comm]
  have hl : ∀ t : Str, argsLoop 0 [(e.tpi.argNames.1, e.args.1, e.tpi.argTypes.1),
      (e.tpi.argNames.2, e.args.2, e.tpi.argTypes.2)] = .ok t ↔
      ∃ texts, List.Forall₂ (fun (a : Option Str × TraceArg × ArgType) (t : Str) =>
          ∃ n v, a.1 = some n ∧ a.2.1.toStr a.2.2 = .ok v ∧ t = toJson n ++ ':' :: v)
          (presentArgs e) texts ∧ t = commaJoin texts := by
    intro t
    rw [argsLoop_eq]
    simp only [← hj]
    have hlen : presentArgs e = [] ∨ (∃ a, presentArgs e = [a]) ∨
        ∃ a b, presentArgs e = [a, b] := by
      unfold presentArgs
      split
      · simp
      · split <;> simp
    rcases hlen with hp | ⟨a, hp⟩ | ⟨a, b, hp⟩ <;> rw [hp] <;> simp only
    · constructor
      · intro h; cases h; exact ⟨[], .nil, rfl⟩
      · rintro ⟨texts, h, rfl⟩; cases h; rfl
    · constructor
      · intro h; exact ⟨[t], .cons h .nil, rfl⟩
      · rintro ⟨texts, h, rfl⟩
        cases h with | cons h1 h2 => cases h2; exact h1
    · constructor
      · intro h
        cases h1 : argJson a.1 a.2.1 a.2.2 with
        | ok s1 =>
          cases h2 : argJson b.1 b.2.1 b.2.2 with
          | ok s2 =>
            rw [h1, h2] at h; cases h
            exact ⟨[s1, s2], .cons h1 (.cons h2 .nil), rfl⟩
          | throw x => rw [h1, h2] at h; cases h
          | ub => rw [h1, h2] at h; cases h
        | throw x => rw [h1] at h; cases h
        | ub => rw [h1] at h; cases h
      · rintro ⟨texts, h, rfl⟩
        cases h with
        | cons h1 h2 => cases h2 with
          | cons h2 h3 => cases h3; rw [h1, h2]; rfl
  unfold Event.toJson
  cases ht : e.typeToJson with
  | throw x => simp
  | ub => simp
  | ok t =>
    simp only [Res.bind_ok]
    cases ha : argsLoop 0 [(e.tpi.argNames.1, e.args.1, e.tpi.argTypes.1),
      (e.tpi.argNames.2, e.args.2, e.tpi.argTypes.2)] with
    | throw x =>
      simp only [Res.bind_throw, reduceCtorEq, false_iff]
      rintro ⟨_, _, texts, _, h, _⟩
      have := (hl _).2 ⟨texts, h, rfl⟩
      rw [ha] at this; cases this
    | ub =>
      simp only [Res.bind_ub, reduceCtorEq, false_iff]
      rintro ⟨_, _, texts, _, h, _⟩
      have := (hl _).2 ⟨texts, h, rfl⟩
      rw [ha] at this; cases this
    | ok as =>
      simp only [Res.bind_ok]
      constructor
      · intro h
        obtain ⟨texts, hf, he⟩ := (hl as).1 ha
        have h := (Res.ok.inj h).symm
        refine ⟨t.1, t.2, texts, rfl, hf, ?_⟩
        rw [h, he]
        simp
      · rintro ⟨ph, ex, texts, he, hf, hs⟩
        have := (hl _).2 ⟨texts, hf, rfl⟩
        rw [ha] at this
        cases this
        cases he
        rw [hs]; simp

/-- Neither the name nor the value of an absent argument influences the JSON form. -/
theorem C60_absent_irrelevant (e e' : Event) (pid : Int) (tid : BitVec 32)
    (hn : e.tpi.name = e'.tpi.name) (hc : e.tpi.category = e'.tpi.category)
    (ht : e.time = e'.time) (hx : e.typeToJson = e'.typeToJson)
    (hp : presentArgs e = presentArgs e') : e.toJson pid tid = e'.toJson pid tid := by
  unfold Event.toJson
  rw [argsLoop_eq, argsLoop_eq, hn, hc, ht, hx, hp]

/-- An event of `TRACE_ASYNC_START0`-like shape whose second name is a null pointer. -/
def nullNameEvent : Event :=
  { tpi := { category := "c".toList, name := "n".toList, type := .asyncStart,
             argNames := (some "id".toList, none), argTypes := (.isPointer, .isNone) },
    args := (.word 0x2a#64, .none), time := 1000#64, duration := 0#64 }

example : nullNameEvent.toJson 1 2#32 = .ok
    ("{\"name\":\"n\",\"cat\":\"c\",\"ph\":\"b\",\"id\": \"0x2a\",\"ts\":1.000,\"pid\":1,\"tid\":2," ++
     "\"args\":{\"id\":\"0x2a\"}}").toList := by decide

/-! ### C61 Debug text of an event -/

/-- `s` is the decimal representation of `n` padded with zeros to exactly `w` digits. -/
def IsPadded (w n : Nat) (s : Str) : Prop := s.length = w ∧ IsDigits s ∧ digitsVal s = n

theorem isPadded_fmtIntPad {w n : Nat} (hw : 0 < w) (h : n < 10 ^ w) :
    IsPadded w n (fmtIntPad w (n : Int)) := by
  have : fmtIntPad w (n : Int) = padZero w (fmtNat n) := by
    rw [fmtIntPad, if_neg (by omega)]; rfl
  rw [this]
  exact ⟨length_padZero hw h, isDigits_padZero w n, digitsVal_padZero w n⟩

theorem splitTime_spec (t : Nat) :
    ∃ d h m s n : Nat, splitTime t = ((d : Int), (h : Int), (m : Int), (s : Int), (n : Int)) ∧ h < 24 ∧ m < 60 ∧ s < 60 ∧
      n < 1000000000 ∧ t = (((d * 24 + h) * 60 + m) * 60 + s) * 1000000000 + n := by
  have key : ∀ (x : Int) (k : Int), 0 ≤ x → 0 < k →
      x.tdiv k = x / k ∧ x - x.tdiv k * k = x % k := by
    intro x k hx hk
    have h := Int.tdiv_eq_ediv_of_nonneg hx (b := k)
    refine ⟨h, ?_⟩
    rw [h]
    have := Int.emod_def x k
    rw [this, Int.mul_comm]
  unfold splitTime
  simp only
  have k1 := key t 86400000000000 (by omega) (by omega)
  rw [k1.2, k1.1]
  have k2 := key ((t : Int) % 86400000000000) 3600000000000 (by omega) (by omega)
  rw [k2.2, k2.1]
  have k3 := key ((t : Int) % 86400000000000 % 3600000000000) 60000000000 (by omega) (by omega)
  rw [k3.2, k3.1]
  have k4 := key ((t : Int) % 86400000000000 % 3600000000000 % 60000000000) 1000000000
    (by omega) (by omega)
  rw [k4.2, k4.1]
  refine ⟨t / 86400000000000, t % 86400000000000 / 3600000000000,
    t % 86400000000000 % 3600000000000 / 60000000000,
    t % 86400000000000 % 3600000000000 % 60000000000 / 1000000000,
    t % 86400000000000 % 3600000000000 % 60000000000 % 1000000000, ?_, ?_, ?_, ?_, ?_, ?_⟩
  · norm_cast
  all_goals omega

/-- The debug text of an event shows its time exactly, as days, hours, minutes, seconds and
nanoseconds, then the category, the name, the type and both arguments. (For a non-negative
time, and for arguments whose stored member is the one their type names.) -/
theorem C61_debug_text (e : Event) (a b : Str) (ht : 0 ≤ e.time.toInt)
    (hc : '\x00' ∉ e.tpi.category) (hn : '\x00' ∉ e.tpi.name)
    (ha : e.args.1.toStr e.tpi.argTypes.1 = .ok a) (hb : e.args.2.toStr e.tpi.argTypes.2 = .ok b)
    (ha0 : '\x00' ∉ a) (hb0 : '\x00' ∉ b) :
    ∃ d h m s n D H M S N,
      e.time.toInt = ((((d * 24 + h) * 60 + m) * 60 + s) * 1000000000 + n : Nat) ∧
      h < 24 ∧ m < 60 ∧ s < 60 ∧ n < 1000000000 ∧
      IsDecimal (d : Nat) D ∧ IsPadded 2 h H ∧ IsPadded 2 m M ∧ IsPadded 2 s S ∧ IsPadded 9 n N ∧
      e.toStr = .ok ("TraceEvent<".toList ++ D ++ "d ".toList ++ H ++ ":".toList ++ M
        ++ ":".toList ++ S ++ ".".toList ++ N ++ ", ".toList ++ e.tpi.category
        ++ ", ".toList ++ e.tpi.name ++ ", type=".toList ++ e.tpi.type.toStr
        ++ ", arg1=".toList ++ a ++ ", arg2=".toList ++ b ++ ">".toList) := by
  obtain ⟨t, htt⟩ : ∃ t : Nat, e.time.toInt = t := ⟨e.time.toInt.toNat, by omega⟩
  obtain ⟨d, h, m, s, n, hsp, h1, h2, h3, h4, h5⟩ := splitTime_spec t
  refine ⟨d, h, m, s, n, fmtInt d, fmtIntPad 2 h, fmtIntPad 2 m, fmtIntPad 2 s, fmtIntPad 9 n,
    by rw [htt, h5], h1, h2, h3, h4, isDecimal_fmtInt _, isPadded_fmtIntPad (by omega) (by omega),
    isPadded_fmtIntPad (by omega) (by omega), isPadded_fmtIntPad (by omega) (by omega),
    isPadded_fmtIntPad (by omega) (by omega), ?_⟩
  have hdig : ∀ (w k : Nat), '\x00' ∉ fmtIntPad w (k : Int) := by
    intro w k hmem
    have e1 : fmtIntPad w (k : Int) = padZero w (fmtNat k) := by
      rw [fmtIntPad, if_neg (by omega)]; rfl
    rw [e1] at hmem
    exact absurd ((isDigits_padZero w k).2 _ hmem) (by decide)
  have hdig' : '\x00' ∉ fmtInt (d : Int) := by
    intro hmem
    rw [fmtInt, if_neg (by omega)] at hmem
    exact not_mem_toDigits (by decide) hmem
  have hty : '\x00' ∉ e.tpi.type.toStr := by cases e.tpi.type <;> decide
  unfold Event.toStr
  rw [ha, hb, htt, hsp]
  simp only [Res.bind_ok, cstr_of_free ha0, cstr_of_free hb0, formatString]
  rw [cstr_of_free]
  simp only [List.mem_append, not_or, hdig, hdig', hc, hn, hty, ha0, hb0, not_false_eq_true,
    and_true]
  decide

example : exampleEvent.toStr = .ok
    "TraceEvent<0d 00:00:00.001234567, cat, na/me, type=Complete, arg1=\"hello\", arg2=-5>".toList := by
  decide

end Phosphor
