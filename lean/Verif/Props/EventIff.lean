import Verif.Proof.EventIff
import Verif.Props.Export
/-
C26 and C29, exactly: which events have JSON that denotes them, and which traces have a document that does.
-/
namespace Phosphor
open Json

/-- A JSON text denotes at most one value, so what an exported text says is determined by the text. -/
theorem C26_unambiguous {s : Str} {v v' : JVal} (h : Text v s) (h' : Text v' s) : v = v' := text_unique h h'

theorem fmtInt_num (i : Int) : (∀ c ∈ fmtInt i, numChar c = true) ∧ fmtInt i ≠ [] := by
  have h := number_fmtInt i
  obtain ⟨c, t, e, _⟩ := number_head h
  exact ⟨number_numChar h, by rw [e]; simp⟩

theorem fmtNat_num (n : Nat) : (∀ c ∈ fmtNat n, numChar c = true) ∧ fmtNat n ≠ [] := by
  have h := number_fmtNat n
  obtain ⟨c, t, e, _⟩ := number_head h
  exact ⟨number_numChar h, by rw [e]; simp⟩

theorem fmtMicros_num (x : BitVec 64) : (∀ c ∈ fmtMicros x, numChar c = true) ∧ fmtMicros x ≠ [] := by
  constructor
  · intro c hc
    rw [fmtMicros, List.mem_append, List.mem_cons] at hc
    rcases hc with hc | rfl | hc
    · exact (fmtInt_num _).1 c hc
    · decide
    · rw [fmtIntPad] at hc
      split at hc
      · rcases List.mem_cons.1 hc with rfl | hc
        · decide
        · exact numChar_digit ((isDigits_padZero _ _).2 c hc)
      · exact numChar_digit ((isDigits_padZero _ _).2 c hc)
  · rw [fmtMicros]; simp

theorem sep_comma {s : Str} : Sep (',' :: s) := by intro c hc; cases hc; decide
theorem sep_brace {s : Str} : Sep ('}' :: s) := by intro c hc; cases hc; decide

theorem skip_comma {s : Str} : skipWs (',' :: s) = ',' :: s := skipWs_self (by decide)
theorem skip_brace {s : Str} : skipWs ('}' :: s) = '}' :: s := skipWs_self (by decide)

/-- A time shown as a number is representable. -/
theorem micros_representable {n : Nat} {x : BitVec 64} {s r : Str} {q : Rat} (hs : Sep s)
    (h : parseValue n (skipWs (fmtMicros x ++ s)) = some (.num q, r)) : TimeRepresentable x ∧ r = s := by
  obtain ⟨h1, h2⟩ := parse_num (fmtMicros_num x).1 hs (fmtMicros_num x).2 h
  exact ⟨(C25_legal_iff x).1 (legal_of_number h1), h2⟩

/-- After a value and a comma come the other members. -/
theorem walk_comma {ms : List (Str × JVal)} {s r r2 : Str}
    (h : (ms = [] ∧ skipWs r2 = '}' :: r) ∨ ∃ r3, skipWs r2 = ',' :: r3 ∧ Walk ms r3 r) (e : r2 = ',' :: s) :
    Walk ms s r := by
  subst e
  rw [skip_comma] at h
  rcases h with ⟨_, h⟩ | ⟨r3, h, hw⟩
  · cases h
  · cases h; exact hw

/-- After the last value comes the closing brace. -/
theorem walk_end {ms : List (Str × JVal)} {s r : Str}
    (h : (ms = [] ∧ skipWs ('}' :: s) = '}' :: r) ∨ ∃ r3, skipWs ('}' :: s) = ',' :: r3 ∧ Walk ms r3 r) : r = s := by
  rw [skip_brace] at h
  rcases h with ⟨_, h⟩ | ⟨r3, h, _⟩
  · cases h; rfl
  · cases h

theorem parse_bool {n : Nat} {b : Bool} {s r : Str} {v : JVal}
    (h : parseValue n (skipWs ((if b then "true".toList else "false".toList) ++ s)) = some (v, r)) : r = s := by
  cases b
  · have e : skipWs ((if false = true then "true".toList else "false".toList) ++ s) =
        'f' :: 'a' :: 'l' :: 's' :: 'e' :: s := skipWs_self (c := 'f') (by decide)
    rw [e] at h
    cases n with
    | zero => unfold parseValue at h; cases h
    | succ n =>
      unfold parseValue at h
      change some (JVal.bool false, s) = some (v, r) at h
      cases h; rfl
  · have e : skipWs ((if true = true then "true".toList else "false".toList) ++ s) =
        't' :: 'r' :: 'u' :: 'e' :: s := skipWs_self (c := 't') (by decide)
    rw [e] at h
    cases n with
    | zero => unfold parseValue at h; cases h
    | succ n =>
      unfold parseValue at h
      change some (JVal.bool true, s) = some (v, r) at h
      cases h; rfl

theorem fmtPointer_plain (w : BitVec 64) : ∀ c ∈ fmtPointer w, PlainChar c := by
  rw [fmtPointer]
  split
  · decide
  · exact hexText_plain (hexText_fmtHex w.toNat)

theorem takeWhile_unique {st s r : Str} (h : '\x00' ∉ s) (e : st = s ∨ st = s ++ '\x00' :: r) :
    st.takeWhile (· ≠ '\x00') = s := by
  have hs : ∀ c ∈ s, decide (c ≠ '\x00') = true := by
    intro c hc
    simp only [decide_eq_true_eq]
    rintro rfl
    exact h hc
  rcases e with rfl | rfl
  · have := (span_eq (p := fun c => decide (c ≠ '\x00')) (s := st) (r := []) hs (by intro c hc; cases hc)).1
    simpa using this
  · exact (span_eq (p := fun c => decide (c ≠ '\x00')) (r := '\x00' :: r) hs
      (by intro c hc; cases hc; decide)).1

/-- An argument whose text is read back as a value that denotes it is representable. -/
theorem argValue_representable {t : ArgType} {a : TraceArg} {x s r : Str} {v : JVal} {n : Nat}
    (hx : a.toStr t = .ok x) (hd : ArgDenotes t a v) (hs : Sep s) (h : parseValue n (skipWs (x ++ s)) = some (v, r)) :
    ArgRepresentable t a ∧ r = s := by
  cases hd with
  | bool b => cases hx; exact ⟨trivial, parse_bool h⟩
  | int w => cases hx; exact ⟨trivial, (parse_num (fmtInt_num _).1 hs (fmtInt_num _).2 h).2⟩
  | uint w => cases hx; exact ⟨trivial, (parse_num (fmtNat_num _).1 hs (fmtNat_num _).2 h).2⟩
  | @double w y q h1 h2 =>
    cases hx
    obtain ⟨q', _, hn⟩ := fmtDouble_rounds h1
    obtain ⟨c, t', e, _⟩ := number_head hn
    refine ⟨?_, (parse_num (number_numChar hn) hs (by rw [e]; simp) h).2⟩
    simp only [ArgRepresentable, h1, Option.isSome_some]
  | nullPtr =>
    cases hx
    exact ⟨trivial, (parse_plain (fmtPointer_plain _) (by simpa using h)).2⟩
  | ptr hw hh =>
    cases hx
    exact ⟨trivial, (parse_plain (fmtPointer_plain _) (by simpa using h)).2⟩
  | string addr y =>
    cases hx
    obtain ⟨h1, _, h2⟩ := parse_raw (List.prefix_refl y) (by simpa using h)
    exact ⟨h1, h2⟩
  | @istring st y r' hl h0 he =>
    have e : cstr st = y := takeWhile_unique h0 he
    simp only [TraceArg.toStr, izToString_eq hl, Res.bind_ok] at hx
    cases hx
    rw [e] at h
    obtain ⟨h1, _, h2⟩ := parse_raw (s := s) (r := r) (n := n) (List.prefix_refl y) (by simpa using h)
    refine ⟨⟨hl, ?_⟩, h2⟩
    rw [takeWhile_unique h0 he]
    exact h1

/-- The argument object. -/
theorem args_representable {e : Event} {as s r : Str} {args : List (Str × JVal)} {n : Nat}
    (ha : argsLoop 0 [(e.tpi.argNames.1, e.args.1, e.tpi.argTypes.1),
      (e.tpi.argNames.2, e.args.2, e.tpi.argTypes.2)] = .ok as)
    (hf : List.Forall₂ ArgMember (presentArgs e) args)
    (h : parseValue n (skipWs ('{' :: (as ++ '}' :: s))) = some (.obj args, r)) :
    (∀ a ∈ presentArgs e, (∃ n, a.1 = some n ∧ TextRepresentable n) ∧ ArgRepresentable a.2.2 a.2.1) ∧ r = s := by
  rw [skipWs_self (by decide)] at h
  rw [argsLoop_eq] at ha
  have hlen : presentArgs e = [] ∨ (∃ a, presentArgs e = [a]) ∨ ∃ a b, presentArgs e = [a, b] := by
    unfold presentArgs
    split
    · exact .inl rfl
    · split
      · exact .inr (.inl ⟨_, rfl⟩)
      · exact .inr (.inr ⟨_, _, rfl⟩)
  generalize presentArgs e = as' at hlen ha hf ⊢
  have arg1 : ∀ {a : Option Str × TraceArg × ArgType} {x : Str}, argJson a.1 a.2.1 a.2.2 = .ok x →
      ∃ k y, a.1 = some k ∧ a.2.1.toStr a.2.2 = .ok y ∧ x = toJson k ++ ':' :: y := by
    intro a x hx
    unfold argJson at hx
    split at hx
    · cases hx
    · rename_i k hk
      cases hy : a.2.1.toStr a.2.2 with
      | ok y => rw [hy] at hx; simp at hx; exact ⟨k, y, hk, rfl, hx.symm⟩
      | throw _ => rw [hy] at hx; cases hx
      | ub => rw [hy] at hx; cases hx
  have step : ∀ {a : Option Str × TraceArg × ArgType} {m : Str × JVal} {ms : List (Str × JVal)} {k y s' : Str},
      a.1 = some k → a.2.1.toStr a.2.2 = .ok y → ArgMember a m → Sep s' →
      Walk (m :: ms) (toJson k ++ ':' :: (y ++ s')) r →
      ((∃ n, a.1 = some n ∧ TextRepresentable n) ∧ ArgRepresentable a.2.2 a.2.1) ∧
      ((ms = [] ∧ skipWs s' = '}' :: r) ∨ ∃ r3, skipWs s' = ',' :: r3 ∧ Walk ms r3 r) := by
    intro a m ms k y s' hk hy hm hs hw
    obtain ⟨ht, n, r2, e1, e2, e3⟩ := walk_toJson hw
    obtain ⟨h1, h2⟩ := argValue_representable hy hm.2 hs e2
    rw [h2] at e3
    exact ⟨⟨⟨k, hk, ht⟩, h1⟩, e3⟩
  rcases hlen with rfl | ⟨a, rfl⟩ | ⟨a, b, rfl⟩
  · cases hf
    cases ha
    rw [List.nil_append] at h
    refine ⟨(by intro a ha; cases ha), ?_⟩
    rcases walk_of_obj h with ⟨_, h0⟩ | hw
    · rw [skip_brace] at h0; cases h0; rfl
    · exact absurd hw walk_nil
  · cases hf with
    | @cons _ m _ ms hm hf =>
      cases hf
      obtain ⟨k, y, hk, hy, rfl⟩ := arg1 ha
      rcases walk_of_obj h with ⟨h0, _⟩ | hw
      · cases h0
      · obtain ⟨p1, p2⟩ := step (s' := '}' :: s) hk hy hm sep_brace (by simpa using hw)
        refine ⟨?_, walk_end p2⟩
        intro a' ha'
        rw [List.mem_singleton] at ha'
        rw [ha']; exact p1
  · cases hf with
    | @cons _ m _ ms hm hf =>
      cases hf with
      | @cons _ m' _ ms hm' hf =>
        cases hf
        dsimp only at ha
        cases h1 : argJson a.1 a.2.1 a.2.2 with
        | throw _ => rw [h1] at ha; cases ha
        | ub => rw [h1] at ha; cases ha
        | ok x1 =>
          cases h2 : argJson b.1 b.2.1 b.2.2 with
          | throw _ => rw [h1, h2] at ha; cases ha
          | ub => rw [h1, h2] at ha; cases ha
          | ok x2 =>
            rw [h1, h2] at ha
            simp only [Res.bind_ok] at ha
            cases ha
            obtain ⟨k1, y1, hk1, hy1, rfl⟩ := arg1 h1
            obtain ⟨k2, y2, hk2, hy2, rfl⟩ := arg1 h2
            rcases walk_of_obj h with ⟨h0, _⟩ | hw
            · cases h0
            · obtain ⟨p1, p2⟩ := step (s' := ',' :: (toJson k2 ++ ':' :: (y2 ++ '}' :: s))) hk1 hy1 hm sep_comma
                (by simpa using hw)
              obtain ⟨p3, p4⟩ := step (s' := '}' :: s) hk2 hy2 hm' sep_brace (walk_comma p2 rfl)
              refine ⟨?_, walk_end p4⟩
              intro a' ha'
              rcases List.mem_cons.1 ha' with rfl | ha'
              · exact p1
              · rw [List.mem_singleton] at ha'
                rw [ha']; exact p3

/-- The text after the phase and the extra members. -/
def tailText (e : Event) (pid : Int) (tid : BitVec 32) (as s : Str) : Str :=
  '"' :: ("ts".toList ++ '"' :: ':' :: (fmtMicros e.time ++ ',' :: ('"' :: ("pid".toList ++ '"' :: ':' ::
    (fmtInt pid ++ ',' :: ('"' :: ("tid".toList ++ '"' :: ':' :: (fmtNat tid.toNat ++ ',' ::
      ('"' :: ("args".toList ++ '"' :: ':' :: ('{' :: (as ++ '}' :: s))))))))))))

/-- The members after the phase and the extra ones. -/
theorem tail_representable {e : Event} {pid : Int} {tid : BitVec 32} {as s r : Str} {args : List (Str × JVal)} {q : Rat}
    {i j : Rat}
    (ha : argsLoop 0 [(e.tpi.argNames.1, e.args.1, e.tpi.argTypes.1),
      (e.tpi.argNames.2, e.args.2, e.tpi.argTypes.2)] = .ok as)
    (hf : List.Forall₂ ArgMember (presentArgs e) args)
    (h : Walk [("ts".toList, .num q), ("pid".toList, .num i), ("tid".toList, .num j), ("args".toList, .obj args)]
      (tailText e pid tid as ('}' :: s)) r) :
    (TimeRepresentable e.time ∧ ∀ a ∈ presentArgs e,
      (∃ n, a.1 = some n ∧ TextRepresentable n) ∧ ArgRepresentable a.2.2 a.2.1) ∧ r = s := by
  obtain ⟨n, r2, _, h1, h2⟩ := walk_plain (by decide) h
  obtain ⟨ht, e1⟩ := micros_representable sep_comma h1
  have h := walk_comma h2 e1
  obtain ⟨n, r2, _, h1, h2⟩ := walk_plain (by decide) h
  have e1 := (parse_num (fmtInt_num _).1 sep_comma (fmtInt_num _).2 h1).2
  have h := walk_comma h2 e1
  obtain ⟨n, r2, _, h1, h2⟩ := walk_plain (by decide) h
  have e1 := (parse_num (fmtNat_num _).1 sep_comma (fmtNat_num _).2 h1).2
  have h := walk_comma h2 e1
  obtain ⟨n, r2, _, h1, h2⟩ := walk_plain (by decide) h
  obtain ⟨h3, rfl⟩ := args_representable ha hf h1
  exact ⟨⟨ht, h3⟩, walk_end h2⟩

/-- What precedes the extra members. -/
theorem head_representable {e : Event} {ph s r : Str} {v1 v2 v3 : JVal} {ms : List (Str × JVal)} {n : Nat}
    (hph : ∀ c ∈ ph, PlainChar c)
    (h : parseValue n (skipWs ('{' :: ('"' :: ("name".toList ++ '"' :: ':' :: (toJson e.tpi.name ++ ',' ::
      ('"' :: ("cat".toList ++ '"' :: ':' :: (toJson e.tpi.category ++ ',' ::
        ('"' :: ("ph".toList ++ '"' :: ':' :: ('"' :: (ph ++ '"' :: ',' :: s)))))))))))) =
      some (.obj (("name".toList, v1) :: ("cat".toList, v2) :: ("ph".toList, v3) :: ms), r)) :
    TextRepresentable e.tpi.name ∧ TextRepresentable e.tpi.category ∧ Walk ms s r := by
  rw [skipWs_self (by decide)] at h
  rcases walk_of_obj h with ⟨h0, _⟩ | h
  · cases h0
  obtain ⟨n, r2, _, h1, h2⟩ := walk_plain (by decide) h
  obtain ⟨t1, _, e1⟩ := parse_toJson h1
  have h := walk_comma h2 e1
  obtain ⟨n, r2, _, h1, h2⟩ := walk_plain (by decide) h
  obtain ⟨t2, _, e1⟩ := parse_toJson h1
  have h := walk_comma h2 e1
  obtain ⟨n, r2, _, h1, h2⟩ := walk_plain (by decide) h
  have e1 := (parse_plain hph h1).2
  exact ⟨t1, t2, walk_comma h2 e1⟩

/-- An event whose text is read back as a value that denotes it is representable. -/
theorem event_representable {e : Event} {pid : Int} {tid : BitVec 32} {s rest r : Str} {v : JVal} {n : Nat}
    (hs : e.toJson pid tid = .ok s) (hv : EventDenotes e pid tid v)
    (hp : parseValue n (skipWs (s ++ rest)) = some (v, r)) : Representable e ∧ r = rest := by
  obtain ⟨extras, args, hx, hf, rfl⟩ := hv
  unfold Event.toJson at hs
  cases ht : e.typeToJson with
  | throw _ => rw [ht] at hs; cases hs
  | ub => rw [ht] at hs; cases hs
  | ok t =>
  rw [ht] at hs
  simp only [Res.bind_ok] at hs
  cases ha : argsLoop 0 [(e.tpi.argNames.1, e.args.1, e.tpi.argTypes.1),
    (e.tpi.argNames.2, e.args.2, e.tpi.argTypes.2)] with
  | throw _ => rw [ha] at hs; cases hs
  | ub => rw [ha] at hs; cases hs
  | ok as =>
  rw [ha] at hs
  simp only [Res.bind_ok] at hs
  cases hs
  -- the text, member by member
  have hp' : ∃ n, parseValue n (skipWs ('{' :: ('"' :: ("name".toList ++ '"' :: ':' :: (toJson e.tpi.name ++ ',' ::
      ('"' :: ("cat".toList ++ '"' :: ':' :: (toJson e.tpi.category ++ ',' ::
        ('"' :: ("ph".toList ++ '"' :: ':' :: ('"' :: (t.1 ++ '"' :: (t.2 ++ ',' ::
          tailText e pid tid as ('}' :: rest)))))))))))))) =
      some (.obj (("name".toList, .str e.tpi.name) :: ("cat".toList, .str e.tpi.category) ::
        ("ph".toList, .str (phase e.tpi.type)) :: (extras ++
      [("ts".toList, .num ((e.time.toInt : Rat) / 1000)), ("pid".toList, .num pid),
        ("tid".toList, .num tid.toNat), ("args".toList, .obj args)])), r) :=
    ⟨_, by simpa [tailText] using hp⟩
  clear hp
  obtain ⟨n, hp⟩ := hp'
  have fin : TextRepresentable e.tpi.name → TextRepresentable e.tpi.category →
      Walk [("ts".toList, .num ((e.time.toInt : Rat) / 1000)), ("pid".toList, .num pid),
        ("tid".toList, .num tid.toNat), ("args".toList, .obj args)] (tailText e pid tid as ('}' :: rest)) r →
      (e.tpi.type = .complete → TimeRepresentable e.duration) →
      (e.tpi.type = .asyncStart ∨ e.tpi.type = .asyncEnd → (asyncId e.args.1).isSome) →
      Representable e ∧ r = rest := by
    intro t1 t2 hw d i
    obtain ⟨⟨h1, h2⟩, h3⟩ := tail_representable ha hf hw
    exact ⟨⟨t1, t2, h1, d, i, h2⟩, h3⟩
  generalize tailText e pid tid as ('}' :: rest) = z at hp fin
  unfold Event.typeToJson at ht
  cases hx with
  | @id m x hty hi hh =>
    have hph : (∀ c ∈ t.1, PlainChar c) ∧
        ∃ w : BitVec 64, t.2 = ",\"id\": \"0x".toList ++ fmtHex w.toNat ++ "\"".toList := by
      rcases hty with hty | hty <;> rw [hty] at ht <;> dsimp only at ht <;>
        (cases hw : e.args.1.asWord with
        | ok w => rw [hw] at ht; cases ht; exact ⟨by dsimp only; decide, w, rfl⟩
        | throw _ => rw [hw] at ht; cases ht
        | ub => rw [hw] at ht; cases ht)
    obtain ⟨hph, w, e2⟩ := hph
    rw [e2] at hp
    obtain ⟨t1, t2, hw⟩ := head_representable (s := '"' :: ("id".toList ++ '"' :: ':' ::
      (' ' :: '"' :: (('0' :: 'x' :: fmtHex w.toNat) ++ '"' :: ',' :: z)))) hph (by simpa using hp)
    obtain ⟨n, r2, _, h1, h2⟩ := walk_plain (by decide) hw
    have e3 : skipWs (' ' :: '"' :: (('0' :: 'x' :: fmtHex w.toNat) ++ '"' :: ',' :: z)) =
        skipWs ('"' :: (('0' :: 'x' :: fmtHex w.toNat) ++ '"' :: ',' :: z)) := rfl
    rw [e3] at h1
    have e1 := (parse_plain (hexText_plain (hexText_fmtHex w.toNat)) h1).2
    refine fin t1 t2 (walk_comma h2 e1) ?_ (fun _ => by rw [hi]; rfl)
    rcases hty with hty | hty <;> rw [hty] <;> exact fun h => by cases h
  | sync hty =>
    have hph : (∀ c ∈ t.1, PlainChar c) ∧ t.2 = [] := by
      rcases hty with hty | hty <;> rw [hty] at ht <;> cases ht <;> exact ⟨by decide, rfl⟩
    rw [hph.2] at hp
    obtain ⟨t1, t2, hw⟩ := head_representable hph.1 hp
    refine fin t1 t2 hw ?_ ?_ <;> rcases hty with hty | hty <;> rw [hty] <;> simp
  | scopeThread hty =>
    rw [hty] at ht
    cases ht
    obtain ⟨t1, t2, hw⟩ := head_representable (by decide) hp
    obtain ⟨n, r2, _, h1, h2⟩ := walk_plain (k := ['s']) (s := '"' :: (['t'] ++ '"' :: ',' :: z)) (by decide) hw
    have e1 := (parse_plain (by decide) h1).2
    refine fin t1 t2 (walk_comma h2 e1) ?_ ?_ <;> rw [hty] <;> simp
  | scopeGlobal hty =>
    rw [hty] at ht
    cases ht
    obtain ⟨t1, t2, hw⟩ := head_representable (by decide) hp
    obtain ⟨n, r2, _, h1, h2⟩ := walk_plain (k := ['s']) (s := '"' :: (['g'] ++ '"' :: ',' :: z)) (by decide) hw
    have e1 := (parse_plain (by decide) h1).2
    refine fin t1 t2 (walk_comma h2 e1) ?_ ?_ <;> rw [hty] <;> simp
  | dur hty =>
    rw [hty] at ht
    cases ht
    obtain ⟨t1, t2, hw⟩ := head_representable (ph := ['X']) (s := '"' :: ("dur".toList ++ '"' :: ':' ::
      (fmtMicros e.duration ++ ',' :: z))) (by decide) (by simpa using hp)
    obtain ⟨n, r2, _, h1, h2⟩ := walk_plain (by decide) hw
    obtain ⟨hd, e1⟩ := micros_representable sep_comma h1
    refine fin t1 t2 (walk_comma h2 e1) (fun _ => hd) ?_
    rw [hty]; simp

/-- The value of a text, from the parser. -/
theorem parse_of_text {v : JVal} {s : Str} (h : Text v s) : ∃ n r, parseValue n (skipWs s) = some (v, r) := by
  rw [← parse_iff] at h
  unfold parse at h
  split at h
  · split at h
    · cases h; exact ⟨_, _, by assumption⟩
    · cases h
  · cases h

/-- The JSON of an event denotes the event exactly if the event is representable: these conditions
cannot be weakened. -/
theorem C26_iff (e : Event) (pid : Int) (tid : BitVec 32) :
    (∃ s v, e.toJson pid tid = .ok s ∧ Text v s ∧ EventDenotes e pid tid v) ↔ Representable e := by
  constructor
  · rintro ⟨s, v, hs, hv, hd⟩
    obtain ⟨n, r, h⟩ := parse_of_text hv
    exact (event_representable (rest := []) hs hd (by rw [List.append_nil]; exact h)).1
  · intro h
    obtain ⟨s, v, h1, h2, h3⟩ := C26_event_json_partial e pid tid h
    exact ⟨s, v, h1, ⟨[], s, [], ws_nil, h2, ws_nil, by simp⟩, h3⟩

/-- Whatever a reader makes of the text of a representable event, it is the event. -/
theorem C26_reading {e : Event} {pid : Int} {tid : BitVec 32} {s : Str} {v : JVal} (h : Representable e)
    (hs : e.toJson pid tid = .ok s) (hv : Text v s) : EventDenotes e pid tid v := by
  obtain ⟨s', v', h1, h2, h3⟩ := (C26_iff e pid tid).2 h
  rw [hs] at h1
  cases h1
  rwa [text_unique hv h2]

/-- The text of an event that is not representable is either not JSON or says something else. -/
theorem C26_misread {e : Event} {pid : Int} {tid : BitVec 32} {s : Str} {v : JVal} (h : ¬ Representable e)
    (hs : e.toJson pid tid = .ok s) (hv : Text v s) : ¬ EventDenotes e pid tid v :=
  fun hd => h ((C26_iff e pid tid).1 ⟨s, v, hs, hv, hd⟩)

/-- The extra members never start with a time. -/
theorem extras_key {e : Event} {x : List (Str × JVal)} (h : Extras e x) :
    x = [] ∨ ∃ k v, x = [(k, v)] ∧ k ≠ "ts".toList := by
  cases h with
  | id => exact .inr ⟨_, _, rfl, by decide⟩
  | sync => exact .inl rfl
  | scopeThread => exact .inr ⟨_, _, rfl, by decide⟩
  | scopeGlobal => exact .inr ⟨_, _, rfl, by decide⟩
  | dur => exact .inr ⟨_, _, rfl, by decide⟩

/-- Nothing is lost: from the text of a representable event one can tell its name, category, phase,
time, process, thread, and the names of its arguments. -/
theorem C26_faithful {e e' : Event} {pid pid' : Int} {tid tid' : BitVec 32} {s : Str} (h : Representable e)
    (h' : Representable e') (hs : e.toJson pid tid = .ok s) (hs' : e'.toJson pid' tid' = .ok s) :
    e.tpi.name = e'.tpi.name ∧ e.tpi.category = e'.tpi.category ∧ phase e.tpi.type = phase e'.tpi.type ∧
    e.time = e'.time ∧ pid = pid' ∧ tid = tid' ∧
    (presentArgs e).map (·.1) = (presentArgs e').map (·.1) := by
  obtain ⟨s1, v, h1, h2, h3⟩ := (C26_iff e pid tid).2 h
  obtain ⟨s2, v', h1', h2', h3'⟩ := (C26_iff e' pid' tid').2 h'
  rw [hs] at h1; cases h1
  rw [hs'] at h1'; cases h1'
  have hv := text_unique h2 h2'
  subst hv
  obtain ⟨x, a, hx, ha, e1⟩ := h3
  obtain ⟨x', a', hx', ha', e2⟩ := h3'
  rw [e1] at e2
  have rat : ∀ {i j : Int}, ((i : Rat)) / 1000 = (j : Rat) / 1000 → i = j := by
    intro i j hij
    have h0 : (1000 : Rat) ≠ 0 := by decide
    have : (i : Rat) = j := by
      rw [div_left_inj' h0] at hij; exact hij
    exact_mod_cast this
  have names : ∀ {l : List (Option Str × TraceArg × ArgType)} {a : List (Str × JVal)},
      List.Forall₂ ArgMember l a → l.map (·.1) = a.map (fun m => some m.1) := by
    intro l a h
    induction h with
    | nil => rfl
    | cons hm _ ih => rw [List.map_cons, List.map_cons, ih, hm.1]
  have fin : [("ts".toList, JVal.num ((e.time.toInt : Rat) / 1000)), ("pid".toList, .num pid),
      ("tid".toList, .num tid.toNat), ("args".toList, .obj a)] =
      [("ts".toList, JVal.num ((e'.time.toInt : Rat) / 1000)), ("pid".toList, .num pid'),
      ("tid".toList, .num tid'.toNat), ("args".toList, .obj a')] →
      e.time = e'.time ∧ pid = pid' ∧ tid = tid' ∧ (presentArgs e).map (·.1) = (presentArgs e').map (·.1) := by
    intro h
    simp only [List.cons.injEq, Prod.mk.injEq, JVal.num.injEq, JVal.obj.injEq, true_and, and_true] at h
    obtain ⟨t1, t2, t3, t4⟩ := h
    refine ⟨BitVec.eq_of_toInt_eq (rat t1), by exact_mod_cast t2, BitVec.eq_of_toNat_eq (by exact_mod_cast t3), ?_⟩
    rw [names ha, names ha', t4]
  simp only [JVal.obj.injEq, List.cons_append, List.nil_append, List.cons.injEq, Prod.mk.injEq, JVal.str.injEq,
    true_and] at e2
  obtain ⟨n1, n2, n3, n4⟩ := e2
  refine ⟨n1, n2, n3, fin ?_⟩
  rcases extras_key hx with rfl | ⟨k, v, rfl, hk⟩ <;> rcases extras_key hx' with rfl | ⟨k', v', rfl, hk'⟩
  · exact n4
  · have := congrArg List.length n4; simp at this
  · have := congrArg List.length n4; simp at this
  · simp only [List.cons_append, List.nil_append, List.cons.injEq] at n4 ⊢
    exact n4.2

/-! ### C29 -/

/-- A number has one value. -/
theorem number_unique {q q' : Rat} {s : Str} (h : Number q s) (h' : Number q' s) : q = q' := by
  have h1 := parseNumber_iff.2 h
  have h2 := parseNumber_iff.2 h'
  rw [h1] at h2
  exact Option.some.inj h2

theorem name_representable {pid : Int} {a : Nat × Str} {rest r : Str} {n : Nat}
    (hp : parseValue n (skipWs (threadAssociationToString pid a ++ rest)) = some (nameObject pid a, r)) :
    NameRepresentable a ∧ r = rest := by
  rw [threadText_eq] at hp
  have hp' : parseValue n (skipWs ('{' :: ('"' :: ("name".toList ++ '"' :: ':' :: ('"' :: ("thread_name".toList ++ '"' :: ',' ::
      ('"' :: ("ph".toList ++ '"' :: ':' :: ('"' :: ("M".toList ++ '"' :: ',' ::
        ('"' :: ("pid".toList ++ '"' :: ':' :: (fmtInt pid ++ ',' ::
          ('"' :: ("tid".toList ++ '"' :: ':' :: (fmtInt (BitVec.ofNat 32 a.1).toInt ++ ',' ::
            ('"' :: ("args".toList ++ '"' :: ':' :: ('{' :: ('"' :: ("name".toList ++ '"' :: ':' ::
              ('"' :: (cstr a.2 ++ '"' :: '}' :: '}' :: rest))))))))))))))))))))))) = some (nameObject pid a, r) := by
    simpa using hp
  clear hp
  rw [skipWs_self (by decide)] at hp'
  rcases walk_of_obj hp' with ⟨h0, _⟩ | h
  · cases h0
  obtain ⟨n, r2, _, h1, h2⟩ := walk_plain (by decide) h
  have h := walk_comma h2 (parse_plain (by decide) h1).2
  obtain ⟨n, r2, _, h1, h2⟩ := walk_plain (by decide) h
  have h := walk_comma h2 (parse_plain (by decide) h1).2
  obtain ⟨n, r2, _, h1, h2⟩ := walk_plain (by decide) h
  have h := walk_comma h2 (parse_num (fmtInt_num _).1 sep_comma (fmtInt_num _).2 h1).2
  obtain ⟨n, r2, _, h1, h2⟩ := walk_plain (by decide) h
  obtain ⟨hn, e1⟩ := parse_num (fmtInt_num _).1 sep_comma (fmtInt_num _).2 h1
  have htid : (BitVec.ofNat 32 a.1).toInt = (a.1 : Int) := by
    have := number_unique hn (number_fmtInt _)
    exact_mod_cast this.symm
  have h := walk_comma h2 e1
  obtain ⟨n, r2, _, h1, h2⟩ := walk_plain (by decide) h
  rw [skipWs_self (by decide)] at h1
  rcases walk_of_obj h1 with ⟨h0, _⟩ | h
  · cases h0
  obtain ⟨n, r3, _, h3, h4⟩ := walk_plain (by decide) h
  have hpre : cstr a.2 <+: a.2 := by
    rcases cstr_split a.2 with h | ⟨z, h⟩
    · rw [← h]
    · exact ⟨'\x00' :: z, h.symm⟩
  obtain ⟨q1, q2, q3⟩ := parse_raw hpre h3
  rw [q3] at h4
  have e2 := walk_end h4
  rw [e2] at h2
  refine ⟨⟨by rw [q2]; exact q1, ?_⟩, walk_end h2⟩
  by_contra hlt
  rw [BitVec.toInt_eq_toNat_cond] at htid
  simp only [BitVec.toNat_ofNat] at htid
  split at htid <;> omega

/-- Reading the elements of an array one after the other: each item is a claim, a value and a text
that is read as this value only if the claim holds. -/
theorem elements_walk {items : List (Prop × JVal × Str)} {n : Nat} {rest r : Str}
    (hi : ∀ p ∈ items, ∀ n rest r, parseValue n (skipWs (p.2.2 ++ rest)) = some (p.2.1, r) → p.1 ∧ r = rest)
    (h : parseElements n (commaJoin (items.map (·.2.2)) ++ ']' :: rest) = some (items.map (·.2.1), r)) :
    ∀ p ∈ items, p.1 := by
  induction items generalizing n with
  | nil => intro p hp; cases hp
  | cons p items ih =>
    cases n with
    | zero => unfold parseElements at h; cases h
    | succ n =>
      unfold parseElements at h
      have hp := hi p (by simp)
      cases items with
      | nil =>
        simp only [List.map_cons, List.map_nil, commaJoin] at h
        split at h
        · rename_i v r' hv
          have : v = p.2.1 := by
            split at h
            · rw [Option.map_eq_some_iff] at h
              obtain ⟨⟨m, r'⟩, h1, h2⟩ := h
              cases h2; rfl
            · cases h; rfl
            · cases h
          rw [this] at hv
          intro q hq
          rw [List.mem_singleton] at hq
          rw [hq]
          exact (hp _ _ _ hv).1
        · cases h
      | cons p' items =>
        have e : commaJoin ((p :: p' :: items).map (·.2.2)) ++ ']' :: rest =
            p.2.2 ++ ',' :: (commaJoin ((p' :: items).map (·.2.2)) ++ ']' :: rest) := by
          simp [commaJoin]
        rw [e] at h
        split at h
        · rename_i v r' hv
          have key : v = p.2.1 := by
            split at h
            · rw [Option.map_eq_some_iff] at h
              obtain ⟨⟨m, r'⟩, h1, h2⟩ := h
              cases h2; rfl
            · cases h
            · cases h
          rw [key] at hv
          obtain ⟨h1, h2⟩ := hp _ _ _ hv
          rw [h2, skip_comma] at h
          simp only at h
          rw [Option.map_eq_some_iff] at h
          obtain ⟨⟨m, r''⟩, h3, h4⟩ := h
          cases h4
          have := ih (fun q hq => hi q (List.mem_cons_of_mem _ hq)) h3
          intro q hq
          rcases List.mem_cons.1 hq with rfl | hq
          · exact h1
          · exact this q hq
        · cases h

/-- The array of a document. -/
theorem array_walk {items : List (Prop × JVal × Str)} {n : Nat} {rest r : Str}
    (hi : ∀ p ∈ items, ∀ n rest r, parseValue n (skipWs (p.2.2 ++ rest)) = some (p.2.1, r) → p.1 ∧ r = rest)
    (h : parseValue n ('[' :: (commaJoin (items.map (·.2.2)) ++ ']' :: rest)) = some (.arr (items.map (·.2.1)), r)) :
    ∀ p ∈ items, p.1 := by
  cases n with
  | zero => unfold parseValue at h; cases h
  | succ n =>
    unfold parseValue at h
    dsimp only at h
    rw [if_neg (by decide), if_neg (by decide), if_neg (by decide), if_neg (by decide), if_pos rfl] at h
    split at h
    · cases items with
      | nil => intro p hp; cases hp
      | cons p items => cases h
    · rw [Option.map_eq_some_iff] at h
      obtain ⟨⟨m, r'⟩, h1, h2⟩ := h
      cases h2
      exact elements_walk hi h1

/-- The exported document lists exactly the named threads and the events of the trace if and only if
every thread name and every event is representable: these conditions cannot be weakened. -/
theorem C29_iff (pid : Int) (ctx : TraceContext) (contents : List (Nat × List Event))
    (hb : ∃ b, ctx.buffer = some b ∧ b.Holds contents) :
    (ctx.Holds pid contents ∧
      ∃ vs, List.Forall₂ (fun p v => EventDenotes p.1 pid (BitVec.ofNat 32 p.2) v) (flatEvents contents) vs ∧
        Text (.obj [("traceEvents".toList, .arr (ctx.threadNames.map (nameObject pid) ++ vs))])
          (document pid ctx.threadNames (flatEvents contents))) ↔
    (∀ a ∈ ctx.threadNames, NameRepresentable a) ∧ ∀ p ∈ flatEvents contents, Representable p.1 := by
  constructor
  · rintro ⟨hh, vs, hf, ht⟩
    have texts := hh.texts
    have hE : ∀ {l : List (Event × Nat)} {vs : List JVal},
        List.Forall₂ (fun p v => EventDenotes p.1 pid (BitVec.ofNat 32 p.2) v) l vs →
        (∀ p ∈ l, ∃ s, p.1.toJson pid (BitVec.ofNat 32 p.2) = .ok s) →
        ∃ items : List (Prop × JVal × Str), items.map (·.2.1) = vs ∧ items.map (·.2.2) = l.map (eventText pid) ∧
          items.map (·.1) = l.map (fun p => Representable p.1) ∧
          ∀ p ∈ items, ∀ n rest r, parseValue n (skipWs (p.2.2 ++ rest)) = some (p.2.1, r) → p.1 ∧ r = rest := by
      intro l vs h
      induction h with
      | nil => exact fun _ => ⟨[], rfl, rfl, rfl, by intro p hp; cases hp⟩
      | @cons p v l vs hd _ ih =>
        intro htx
        obtain ⟨items, i1, i2, i3, i4⟩ := ih (fun q hq => htx q (List.mem_cons_of_mem _ hq))
        obtain ⟨s, hs⟩ := htx p (List.mem_cons_self ..)
        refine ⟨(Representable p.1, v, eventText pid p) :: items, by simp [i1], by simp [i2], by simp [i3], ?_⟩
        intro q hq
        rcases List.mem_cons.1 hq with rfl | hq
        · intro n rest r hr
          have e : eventText pid p = s := by rw [eventText, hs]
          dsimp only at hr ⊢
          rw [e] at hr
          exact event_representable hs hd hr
        · exact i4 q hq
    obtain ⟨items, i1, i2, i3, i4⟩ := hE hf texts
    obtain ⟨n, r, hp⟩ := parse_of_text ht
    have hp' : parseValue n ('{' :: ('"' :: ("traceEvents".toList ++ '"' :: ':' :: ('[' :: (commaJoin
        ((ctx.threadNames.map (fun a => (NameRepresentable a, nameObject pid a, threadAssociationToString pid a)) ++
          items).map (·.2.2)) ++ ']' :: ['}']))))) = some (.obj [("traceEvents".toList,
            .arr ((ctx.threadNames.map (fun a => (NameRepresentable a, nameObject pid a, threadAssociationToString pid a)) ++
          items).map (·.2.1)))], r) := by
      rw [← skipWs_self (c := '{') (by decide)]
      simp only [List.map_append, List.map_map, i1, i2]
      unfold document at hp
      simpa [Function.comp_def] using hp
    rcases walk_of_obj hp' with ⟨h0, _⟩ | h
    · cases h0
    obtain ⟨n, r2, _, h1, h2⟩ := walk_plain (by decide) h
    rw [skipWs_self (by decide)] at h1
    have fin := array_walk (by
      intro p hp
      rcases List.mem_append.1 hp with hp | hp
      · obtain ⟨a, _, rfl⟩ := List.mem_map.1 hp
        intro n rest r hr
        exact name_representable hr
      · exact i4 p hp) h1
    constructor
    · intro a ha
      exact fin (NameRepresentable a, nameObject pid a, threadAssociationToString pid a)
        (List.mem_append_left _ (List.mem_map.2 ⟨a, ha, rfl⟩))
    · intro p hp
      have : Representable p.1 ∈ items.map (·.1) := by rw [i3]; exact List.mem_map.2 ⟨p, hp, rfl⟩
      obtain ⟨q, hq, e⟩ := List.mem_map.1 this
      have h3 := fin q (List.mem_append_right _ hq)
      rw [e] at h3
      exact h3
  · rintro ⟨hn, he⟩
    obtain ⟨h1, vs, h2, h3⟩ := C29_document_partial pid ctx contents hb hn he
    exact ⟨h1, vs, h2, [], _, [], ws_nil, h3, ws_nil, by simp⟩

/-- Whatever a reader makes of the document of a representable trace, it lists the named threads and
the events, in this order and nothing else. -/
theorem C29_reading (pid : Int) (ctx : TraceContext) (contents : List (Nat × List Event))
    (hb : ∃ b, ctx.buffer = some b ∧ b.Holds contents) (hn : ∀ a ∈ ctx.threadNames, NameRepresentable a)
    (he : ∀ p ∈ flatEvents contents, Representable p.1) {v : JVal}
    (hv : Text v (document pid ctx.threadNames (flatEvents contents))) :
    ∃ vs, v = .obj [("traceEvents".toList, .arr (ctx.threadNames.map (nameObject pid) ++ vs))] ∧
      List.Forall₂ (fun p v => EventDenotes p.1 pid (BitVec.ofNat 32 p.2) v) (flatEvents contents) vs := by
  obtain ⟨_, vs, h2, h3⟩ := (C29_iff pid ctx contents hb).2 ⟨hn, he⟩
  exact ⟨vs, text_unique hv h3, h2⟩

/-- The text of the example event is read as the event, and as nothing else. -/
example {v : JVal} {s : Str} (hs : exampleEvent.toJson 42 7#32 = .ok s) (hv : Text v s) :
    EventDenotes exampleEvent 42 7#32 v := C26_reading exampleEvent_representable hs hv

/-- An event with a string that ends in a backslash is legal nowhere, as its condition tells. -/
example : ¬ Representable (stringEvent ['\\']) := fun h =>
  absurd ((h.args _ (List.mem_cons_self ..)).2 '\\' (List.mem_cons_self ..)) (by decide)

end Phosphor
