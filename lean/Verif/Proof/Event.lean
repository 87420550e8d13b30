import Verif.Spec.Event
import Verif.Proof.Number
import Verif.Proof.Double
import Verif.Proof.Escape
import Verif.Proof.InlineZString
/-
JSON form of events, against the grammar.
-/
namespace Phosphor
open Json

theorem ws_nil : Ws [] := by intro c hc; cases hc

theorem member_mk {k ks : Str} {v : JVal} {s : Str} (hk : IsString k ks) (hv : Value v s) :
    Member (k, v) (ks ++ ':' :: s) := by
  simpa using Member.mk ws_nil hk ws_nil ws_nil hv ws_nil

theorem isString_plain {s : Str} (h : ∀ c ∈ s, PlainChar c) : IsString s ('"' :: (s ++ ['"'])) :=
  ⟨s, rfl, chars_plain h⟩

theorem isString_self_iff {s : Str} :
    IsString s ('"' :: (s ++ ['"'])) ↔ ∀ c ∈ s, PlainChar c := by
  rw [← chars_self_iff]
  constructor
  · rintro ⟨t, ht, hc⟩
    simp only [List.cons.injEq, true_and, List.append_cancel_right_eq] at ht
    subst ht; exact hc
  · exact fun h => ⟨s, rfl, h⟩

theorem members_append {ms ns : List (Str × JVal)} {s t : Str} (h : Members ms s)
    (h' : Members ns t) : Members (ms ++ ns) (s ++ ',' :: t) := by
  induction ms generalizing s with
  | nil => cases h
  | cons m ms ih =>
    cases h with
    | one hm => exact Members.cons hm h'
    | cons hm hms => simpa using Members.cons hm (ih hms)

theorem elements_append {vs ws : List JVal} {s t : Str} (h : Elements vs s)
    (h' : Elements ws t) : Elements (vs ++ ws) (s ++ ',' :: t) := by
  induction vs generalizing s with
  | nil => cases h
  | cons v vs ih =>
    cases h with
    | one h1 h2 h3 => exact Elements.cons h1 h2 h3 h'
    | cons h1 h2 h3 h4 => simpa using Elements.cons h1 h2 h3 (ih h4)

theorem textRepresentable_iff {s : Str} : TextRepresentable s ↔ ∀ c ∈ s, JsonSafe c := Iff.rfl

theorem f64_isSome_iff (w : BitVec 64) : (f64Value w).isSome ↔ dblExp w ≠ 2047 := by
  rw [f64Value_eq]; split <;> simp_all

/-- The text of a finite double denotes its rounded value. -/
theorem fmtDouble_rounds {w : BitVec 64} {x : Rat} (h : f64Value w = some x) :
    ∃ q, RoundsTo6 x q ∧ Number q (fmtDouble w) := by
  have hfin : dblExp w ≠ 2047 := (f64_isSome_iff w).1 (by rw [h]; rfl)
  have hnum := fmtDouble_number hfin
  rw [f64Value_eq, if_neg hfin] at h
  have h := Option.some.inj h
  obtain ⟨h1, h2, h3⟩ := dblMicros_spec w _ rfl
  generalize ((dblSig w : Rat) * ((2 : Rat) ^ dblE w / (2 : Rat) ^ 1075)) = y at *
  refine ⟨_, ?_, hnum⟩
  subst h
  cases dblSign w with
  | true =>
    refine ⟨-(dblMicros w : Int), ?_, ?_, ?_, ?_⟩
    · simp; ring
    · simp; linarith
    · simp; linarith
    · intro hh
      have : dblMicros w % 2 = 0 := by
        apply h3
        rcases hh with hh | hh
        · left; simp at hh; linarith
        · right; simp at hh; linarith
      omega
  | false =>
    refine ⟨(dblMicros w : Int), ?_, ?_, ?_, ?_⟩
    · simp
    · simp; linarith
    · simp; linarith
    · intro hh
      have : dblMicros w % 2 = 0 := by
        apply h3
        rcases hh with hh | hh
        · right; simp at hh; linarith
        · left; simp at hh; linarith
      omega

theorem cstr_split (st : Str) : st = cstr st ∨ ∃ r, st = cstr st ++ '\x00' :: r := by
  induction st with
  | nil => exact Or.inl rfl
  | cons c st ih =>
    rw [cstr_cons]
    by_cases h : c = '\x00'
    · rw [if_pos h, h]; exact Or.inr ⟨st, rfl⟩
    · rw [if_neg h]
      rcases ih with ih | ⟨r, ih⟩
      · left; rw [← ih]
      · right; exact ⟨r, by rw [List.cons_append, ← ih]⟩

/-- The text of a representable argument denotes it. -/
theorem argStr_denotes {t : ArgType} {a : TraceArg} (h : ArgRepresentable t a) :
    ∃ s v, a.toStr t = .ok s ∧ Value v s ∧ ArgDenotes t a v := by
  cases t <;> cases a <;> simp only [ArgRepresentable] at h
  case isBool.bool b =>
    cases b
    · exact ⟨_, _, rfl, Value.false, .bool _⟩
    · exact ⟨_, _, rfl, Value.true, .bool _⟩
  case isUint.word w =>
    exact ⟨_, _, rfl, Value.num (number_fmtNat w.toNat), .uint w⟩
  case isInt.word w =>
    exact ⟨_, _, rfl, Value.num (number_fmtInt w.toInt), .int w⟩
  case isDouble.word w =>
    obtain ⟨x, hx⟩ := Option.isSome_iff_exists.1 h
    obtain ⟨q, hq, hn⟩ := fmtDouble_rounds hx
    exact ⟨_, _, rfl, Value.num hn, .double hx hq⟩
  case isPointer.word w =>
    by_cases hw : w = 0#64
    · subst hw
      exact ⟨_, _, rfl, Value.str (isString_plain (s := ['0']) (by decide)), .nullPtr⟩
    · have h0 : w.toNat ≠ 0 := fun h0 => hw (by
        apply BitVec.eq_of_toNat_eq; simpa using h0)
      have := hexText_fmtHex w.toNat
      refine ⟨_, _, rfl, ?_, .ptr hw this⟩
      simp only [fmtPointer, if_neg h0]
      exact Value.str (isString_plain (hexText_plain this))
  case isString.str addr s =>
    exact ⟨_, _, rfl, Value.str (isString_plain h), .string addr s⟩
  case isIstring.istr st =>
    refine ⟨_, _, ?_, Value.str (isString_plain (s := cstr st) h.2), ?_⟩
    · simp only [TraceArg.toStr, izToString_eq h.1, Res.bind_ok]; rfl
    · rcases cstr_split st with hs | ⟨r, hs⟩
      · exact .istring (r := []) h.1 (cstr_free st) (Or.inl hs)
      · exact .istring (r := r) h.1 (cstr_free st) (Or.inr hs)

/-- The argument loop, for the arguments of an event. -/
theorem argsLoop_eq (e : Event) :
    argsLoop 0 [(e.tpi.argNames.1, e.args.1, e.tpi.argTypes.1),
      (e.tpi.argNames.2, e.args.2, e.tpi.argTypes.2)] =
    match presentArgs e with
    | [] => .ok []
    | [a] => argJson a.1 a.2.1 a.2.2
    | [a, b] => do
      let s ← argJson a.1 a.2.1 a.2.2
      let t ← argJson b.1 b.2.1 b.2.2
      .ok (s ++ ',' :: t)
    | _ => .ub := by
  unfold presentArgs
  by_cases h1 : e.tpi.argTypes.1 = .isNone
  · simp [argsLoop, h1]
  · by_cases h2 : e.tpi.argTypes.2 = .isNone
    · simp only [argsLoop, if_neg h1, if_pos h2]
      cases argJson e.tpi.argNames.1 e.args.1 e.tpi.argTypes.1 <;> simp
    · simp only [argsLoop, if_neg h1, if_neg h2]
      cases argJson e.tpi.argNames.1 e.args.1 e.tpi.argTypes.1 <;>
        cases argJson e.tpi.argNames.2 e.args.2 e.tpi.argTypes.2 <;> simp

theorem argJson_member {a : Option Str × TraceArg × ArgType}
    (h : (∃ n, a.1 = some n ∧ TextRepresentable n) ∧ ArgRepresentable a.2.2 a.2.1) :
    ∃ s m, argJson a.1 a.2.1 a.2.2 = .ok s ∧ Member m s ∧ ArgMember a m := by
  obtain ⟨⟨n, hn, ht⟩, hr⟩ := h
  obtain ⟨s, v, h1, h2, h3⟩ := argStr_denotes hr
  refine ⟨toJson n ++ ':' :: s, (n, v), ?_, member_mk (isString_toJson ht) h2, hn, h3⟩
  rw [hn]; simp [argJson, h1]

theorem argsLoop_members (e : Event)
    (h : ∀ a ∈ presentArgs e, (∃ n, a.1 = some n ∧ TextRepresentable n) ∧
      ArgRepresentable a.2.2 a.2.1) :
    ∃ s ms, argsLoop 0 [(e.tpi.argNames.1, e.args.1, e.tpi.argTypes.1),
        (e.tpi.argNames.2, e.args.2, e.tpi.argTypes.2)] = .ok s ∧
      Value (.obj ms) ('{' :: (s ++ ['}'])) ∧
      List.Forall₂ ArgMember (presentArgs e) ms := by
  rw [argsLoop_eq]
  have hlen : presentArgs e = [] ∨ (∃ a, presentArgs e = [a]) ∨ ∃ a b, presentArgs e = [a, b] := by
    unfold presentArgs
    split
    · simp
    · split <;> simp
  rcases hlen with hp | ⟨a, hp⟩ | ⟨a, b, hp⟩ <;> rw [hp] at h ⊢ <;> simp only
  · exact ⟨[], [], rfl, Value.objNil ws_nil, .nil⟩
  · obtain ⟨s, m, h1, h2, h3⟩ := argJson_member (h a (by simp))
    exact ⟨s, [m], h1, Value.obj (Members.one h2), .cons h3 .nil⟩
  · obtain ⟨s, m, h1, h2, h3⟩ := argJson_member (h a (by simp))
    obtain ⟨s', m', h1', h2', h3'⟩ := argJson_member (h b (by simp))
    refine ⟨s ++ ',' :: s', [m, m'], by simp [h1, h1'],
      Value.obj (Members.cons h2 (Members.one h2')), .cons h3 (.cons h3' .nil)⟩

/-- The phase and the extra members. -/
theorem typeToJson_spec (e : Event)
    (hd : e.tpi.type = .complete → TimeRepresentable e.duration)
    (hi : e.tpi.type = .asyncStart ∨ e.tpi.type = .asyncEnd → (asyncId e.args.1).isSome)
    (hnum : ∀ x : BitVec 64, TimeRepresentable x → Number ((x.toInt : Rat) / 1000) (fmtMicros x)) :
    ∃ x ms, e.typeToJson = .ok (phase e.tpi.type, x) ∧ Extras e ms ∧
      ((x = [] ∧ ms = []) ∨ ∃ t, x = ',' :: t ∧ Members ms t) := by
  have hid : e.tpi.type = .asyncStart ∨ e.tpi.type = .asyncEnd →
      ∃ p, e.args.1.asWord = .ok p ∧ asyncId e.args.1 = some p.toNat := by
    intro h
    have := hi h
    cases ha : e.args.1 <;> rw [ha] at this <;> first | (simp [asyncId] at this; done) | skip
    · exact ⟨_, rfl, rfl⟩
    · exact ⟨_, rfl, rfl⟩
  have hidm : ∀ n : Nat, Members [("id".toList, .str ('0' :: 'x' :: fmtHex n))]
      ("\"id\": \"0x".toList ++ fmtHex n ++ "\"".toList) := by
    intro n
    have := Member.mk (w1 := []) (w2 := []) (w3 := [' ']) (w4 := []) ws_nil
      (isString_plain (s := "id".toList) (by decide)) ws_nil (by intro c hc; simp at hc; simp [isWs, hc])
      (Value.str (isString_plain (hexText_plain (hexText_fmtHex n)))) ws_nil
    refine Members.one ?_
    convert this using 1
    simp
  cases ht : e.tpi.type
  case asyncStart =>
    obtain ⟨p, hp, hq⟩ := hid (Or.inl ht)
    refine ⟨_, _, by simp [Event.typeToJson, ht, hp]; rfl,
      .id (Or.inl ht) hq (hexText_fmtHex p.toNat), Or.inr ⟨_, rfl, hidm p.toNat⟩⟩
  case asyncEnd =>
    obtain ⟨p, hp, hq⟩ := hid (Or.inr ht)
    refine ⟨_, _, by simp [Event.typeToJson, ht, hp]; rfl,
      .id (Or.inr ht) hq (hexText_fmtHex p.toNat), Or.inr ⟨_, rfl, hidm p.toNat⟩⟩
  case syncStart =>
    exact ⟨_, _, by simp [Event.typeToJson, ht]; rfl, .sync (Or.inl ht), Or.inl ⟨rfl, rfl⟩⟩
  case syncEnd =>
    exact ⟨_, _, by simp [Event.typeToJson, ht]; rfl, .sync (Or.inr ht), Or.inl ⟨rfl, rfl⟩⟩
  case instant =>
    refine ⟨_, _, by simp only [Event.typeToJson, ht]; rfl, .scopeThread ht,
      Or.inr ⟨"\"s\":\"t\"".toList, rfl, Members.one ?_⟩⟩
    exact member_mk (ks := "\"s\"".toList) (isString_plain (s := "s".toList) (by decide))
      (Value.str (isString_plain (s := ['t']) (by decide)))
  case globalInstant =>
    refine ⟨_, _, by simp only [Event.typeToJson, ht]; rfl, .scopeGlobal ht,
      Or.inr ⟨"\"s\":\"g\"".toList, rfl, Members.one ?_⟩⟩
    exact member_mk (ks := "\"s\"".toList) (isString_plain (s := "s".toList) (by decide))
      (Value.str (isString_plain (s := ['g']) (by decide)))
  case complete =>
    refine ⟨_, _, by simp only [Event.typeToJson, ht]; rfl, .dur ht,
      Or.inr ⟨"\"dur\":".toList ++ fmtMicros e.duration, rfl, Members.one ?_⟩⟩
    exact member_mk (ks := "\"dur\"".toList) (isString_plain (s := "dur".toList) (by decide))
      (Value.num (hnum _ (hd ht)))

end Phosphor
