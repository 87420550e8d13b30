import Verif.Spec.Json
import Mathlib.Tactic.ByContra
/-
A parser for the JSON grammar of Spec/Json, sound and complete: a text denotes at most one value, and
which one is decidable.
-/
namespace Phosphor.Json

/-! ### Lists -/

theorem span_eq {p : Char → Bool} {s r : Str} (hs : ∀ c ∈ s, p c = true) (hr : ∀ c ∈ r.head?, p c = false) :
    (s ++ r).takeWhile p = s ∧ (s ++ r).dropWhile p = r := by
  induction s with
  | nil =>
    cases r with
    | nil => exact ⟨rfl, rfl⟩
    | cons c r =>
      have := hr c rfl
      simp [this]
  | cons c s ih =>
    have h1 := hs c (by simp)
    obtain ⟨i1, i2⟩ := ih (fun d hd => hs d (by simp [hd]))
    constructor
    · rw [List.cons_append, List.takeWhile_cons_of_pos h1, i1]
    · rw [List.cons_append, List.dropWhile_cons_of_pos h1, i2]

theorem takeWhile_all {p : Char → Bool} {s : Str} : ∀ c ∈ s.takeWhile p, p c = true := by
  induction s with
  | nil => simp
  | cons c s ih =>
    by_cases h : p c = true
    · rw [List.takeWhile_cons_of_pos h]
      intro d hd
      rcases List.mem_cons.1 hd with rfl | hd
      · exact h
      · exact ih d hd
    · rw [List.takeWhile_cons_of_neg h]; simp

theorem span_split {p : Char → Bool} (s : Str) : s.takeWhile p ++ s.dropWhile p = s :=
  List.takeWhile_append_dropWhile

/-! ### Strings -/

/-- The value of four hexadecimal digits. -/
def hex4 (a b c d : Char) : Option Nat :=
  match hexVal a, hexVal b, hexVal c, hexVal d with
  | some i, some j, some k, some l => some (4096 * i + 256 * j + 16 * k + l)
  | _, _, _, _ => none

/-- The rest of a string literal after its opening quote: the value and what follows. -/
def parseChars : Str → Option (Str × Str)
  | [] => none
  | c :: r =>
    if c = '"' then some ([], r)
    else if c = '\\' then
      match r with
      | [] => none
      | e :: r =>
        if e = 'u' then
          match r with
          | a :: b :: c :: d :: r =>
            match hex4 a b c d with
            | some n => (parseChars r).map fun (v, r) => (utf8 n ++ v, r)
            | none => none
          | _ => none
        else
          match shortEscape e with
          | some c => (parseChars r).map fun (v, r) => (c :: v, r)
          | none => none
    else if 0x20 ≤ c.toNat then (parseChars r).map fun (v, r) => (c :: v, r)
    else none

theorem parseChars_complete {v t : Str} (h : Chars v t) (r : Str) :
    parseChars (t ++ '"' :: r) = some (v, r) := by
  induction h with
  | nil => rw [List.nil_append]; unfold parseChars; rw [if_pos rfl]
  | @plain c v t h1 h2 h3 _ ih =>
    rw [List.cons_append]
    unfold parseChars
    rw [if_neg h2, if_neg h3, if_pos h1, ih]; rfl
  | @short e c v t h1 _ ih =>
    rw [List.cons_append, List.cons_append]
    unfold parseChars
    rw [if_neg (by decide), if_pos rfl]
    dsimp only
    rw [if_neg (by rintro rfl; cases h1), h1]
    simp only [ih]; rfl
  | @unicode a b c d i j k l v t h1 h2 h3 h4 _ ih =>
    simp only [List.cons_append]
    unfold parseChars
    rw [if_neg (by decide), if_pos rfl]
    dsimp only
    rw [if_pos rfl]
    simp only [hex4, h1, h2, h3, h4, ih]; rfl

theorem hex4_some {a b c d : Char} {n : Nat} (h : hex4 a b c d = some n) : ∃ i j k l, hexVal a = some i ∧
    hexVal b = some j ∧ hexVal c = some k ∧ hexVal d = some l ∧ n = 4096 * i + 256 * j + 16 * k + l := by
  unfold hex4 at h
  split at h
  · rename_i i j k l h1 h2 h3 h4
    cases h
    exact ⟨i, j, k, l, h1, h2, h3, h4, rfl⟩
  · cases h

theorem parseChars_sound : ∀ {s v r : Str}, parseChars s = some (v, r) → ∃ t, s = t ++ '"' :: r ∧ Chars v t := by
  intro s
  induction hn : s.length using Nat.strongRecOn generalizing s with
  | _ n ih =>
    intro v r h
    have step : ∀ {s' : Str} (f : Str × Str → Str × Str), s'.length < n → (parseChars s').map f = some (v, r) →
        ∃ v' r' t, s' = t ++ '"' :: r' ∧ Chars v' t ∧ f (v', r') = (v, r) := by
      intro s' f hl hm
      rw [Option.map_eq_some_iff] at hm
      obtain ⟨⟨v', r'⟩, h1, h2⟩ := hm
      obtain ⟨t, h3, h4⟩ := ih _ hl rfl h1
      exact ⟨v', r', t, h3, h4, h2⟩
    unfold parseChars at h
    split at h
    · cases h
    · rename_i c r0
      split at h
      · rename_i hc
        cases h
        exact ⟨[], by rw [hc]; rfl, .nil⟩
      · rename_i hq
        split at h
        · rename_i hc
          split at h
          · cases h
          · rename_i e r1
            split at h
            · rename_i he
              split at h
              · rename_i a b c' d r2
                split at h
                · rename_i m hm
                  obtain ⟨i, j, k, l, e1, e2, e3, e4, rfl⟩ := hex4_some hm
                  obtain ⟨v', r', t, h1, h2, h3⟩ := step _ (by rw [← hn]; simp; omega) h
                  cases h3
                  exact ⟨'\\' :: 'u' :: a :: b :: c' :: d :: t, by rw [h1, hc, he]; rfl, .unicode e1 e2 e3 e4 h2⟩
                · cases h
              · cases h
            · split at h
              · rename_i x hx
                obtain ⟨v', r', t, h1, h2, h3⟩ := step _ (by rw [← hn]; simp; omega) h
                cases h3
                exact ⟨'\\' :: e :: t, by rw [h1, hc]; rfl, .short hx h2⟩
              · cases h
        · rename_i hb
          split at h
          · rename_i hc
            obtain ⟨v', r', t, h1, h2, h3⟩ := step _ (by rw [← hn]; simp) h
            cases h3
            exact ⟨c :: t, by rw [h1]; rfl, .plain hc hq hb h2⟩
          · cases h

/-! ### Numbers -/

def isDigit (c : Char) : Bool := decide (Digit c)

instance (s : Str) : Decidable (IsInt s) := inferInstanceAs (Decidable (_ ∨ _ ∧ _ ∧ _))
instance (s : Str) : Decidable (IsDigits s) := inferInstanceAs (Decidable (_ ∧ _))

def parseFrac : Str → Option (Rat × Str)
  | '.' :: r =>
    if r.takeWhile isDigit = [] then none
    else some ((digitsVal (r.takeWhile isDigit) : Rat) / (10 ^ (r.takeWhile isDigit).length : Nat), r.dropWhile isDigit)
  | r => some (0, r)

def parseExp : Str → Option Int
  | [] => some 0
  | e :: r =>
    if e = 'e' ∨ e = 'E' then
      match r with
      | [] => none
      | c :: ds =>
        if c = '+' then if IsDigits ds then some (digitsVal ds) else none
        else if c = '-' then if IsDigits ds then some (-(digitsVal ds : Int)) else none
        else if IsDigits (c :: ds) then some (digitsVal (c :: ds)) else none
    else none

def parseUNumber (s : Str) : Option Rat :=
  if IsInt (s.takeWhile isDigit) then
    match parseFrac (s.dropWhile isDigit) with
    | some (f, r) => (parseExp r).map fun x => ((digitsVal (s.takeWhile isDigit) : Rat) + f) * pow10 x
    | none => none
  else none

def parseNumber : Str → Option Rat
  | '-' :: s => (parseUNumber s).map fun q => -q
  | s => parseUNumber s

theorem isInt_digits {s : Str} (h : IsInt s) : s ≠ [] ∧ ∀ c ∈ s, Digit c := by
  rcases h with rfl | ⟨h1, h2, _⟩
  · exact ⟨by simp, by decide⟩
  · exact ⟨h1, h2⟩

theorem exp_head {x : Int} {s : Str} (h : Exp x s) : ∀ c ∈ s.head?, c = 'e' ∨ c = 'E' := by
  cases h <;> simp_all

theorem frac_head {q : Rat} {s : Str} (h : Frac q s) : ∀ c ∈ s.head?, c = '.' := by
  cases h <;> simp_all

theorem noDigit_e {c : Char} (h : c = 'e' ∨ c = 'E') : isDigit c = false := by
  rcases h with rfl | rfl <;> decide

theorem parseExp_iff {x : Int} {s : Str} : parseExp s = some x ↔ Exp x s := by
  constructor
  · intro h
    unfold parseExp at h
    split at h
    · cases h; exact .none
    · rename_i e r
      split at h
      · rename_i he
        split at h
        · cases h
        · split at h
          · rename_i hc
            split at h
            · rename_i hd; cases h; rw [hc]; exact .plus he hd
            · cases h
          · split at h
            · rename_i hc
              split at h
              · rename_i hd; cases h; rw [hc]; exact .minus he hd
              · cases h
            · split at h
              · rename_i hd; cases h; exact .pos he hd
              · cases h
      · cases h
  · intro h
    cases h with
    | none => rfl
    | @pos e ds he hd =>
      unfold parseExp
      cases ds with
      | nil => exact absurd rfl hd.1
      | cons c ds =>
        dsimp only
        rw [if_pos he, if_neg (by rintro rfl; exact absurd (hd.2 '+' (by simp)) (by decide)),
          if_neg (by rintro rfl; exact absurd (hd.2 '-' (by simp)) (by decide)), if_pos hd]
    | plus he hd => unfold parseExp; dsimp only; rw [if_pos he, if_pos rfl, if_pos hd]
    | minus he hd =>
      unfold parseExp; dsimp only; rw [if_pos he, if_neg (by decide), if_pos rfl, if_pos hd]

theorem parseFrac_complete {q : Rat} {s r : Str} (h : Frac q s) (hr : ∀ c ∈ r.head?, c = 'e' ∨ c = 'E') :
    parseFrac (s ++ r) = some (q, r) := by
  cases h with
  | none =>
    rw [List.nil_append]
    unfold parseFrac
    split
    · exact absurd (hr '.' rfl) (by decide)
    · rfl
  | @some ds hd =>
    obtain ⟨h1, h2⟩ := span_eq (p := isDigit) (s := ds) (r := r) (fun c hc => by simpa [isDigit] using hd.2 c hc)
      (fun c hc => noDigit_e (hr c hc))
    simp only [List.cons_append, parseFrac, h1, h2, if_neg hd.1]

theorem parseFrac_sound {q : Rat} {s r : Str} (h : parseFrac s = some (q, r)) : ∃ t, s = t ++ r ∧ Frac q t := by
  unfold parseFrac at h
  split at h
  · rename_i r0
    split at h
    · cases h
    · rename_i hne
      cases h
      refine ⟨'.' :: r0.takeWhile isDigit, ?_, .some ⟨hne, fun c hc => ?_⟩⟩
      · rw [List.cons_append, span_split]
      · simpa [isDigit] using takeWhile_all c hc
  · cases h; exact ⟨[], rfl, .none⟩

theorem parseUNumber_iff {q : Rat} {s : Str} : parseUNumber s = some q ↔ UNumber q s := by
  constructor
  · intro h
    unfold parseUNumber at h
    split at h
    · rename_i hi
      split at h
      · rename_i f r hf
        rw [Option.map_eq_some_iff] at h
        obtain ⟨x, hx, rfl⟩ := h
        obtain ⟨t, h1, h2⟩ := parseFrac_sound hf
        have h3 := UNumber.mk hi h2 (parseExp_iff.1 hx)
        rw [List.append_assoc, ← h1, span_split] at h3
        exact h3
      · cases h
    · cases h
  · intro h
    cases h with
    | @mk ip fr ex f x h1 h2 h3 =>
      have hex := exp_head h3
      have hfr : ∀ c ∈ (fr ++ ex).head?, isDigit c = false := by
        intro c hc
        cases h2 with
        | none => exact noDigit_e (hex c hc)
        | some _ => cases hc; decide
      obtain ⟨e1, e2⟩ := span_eq (p := isDigit) (s := ip) (r := fr ++ ex)
        (fun c hc => by simpa [isDigit] using (isInt_digits h1).2 c hc) hfr
      rw [parseUNumber, List.append_assoc, e1, e2, if_pos h1, parseFrac_complete h2 hex]
      simp only [parseExp_iff.2 h3, Option.map_some]

theorem uNumber_head {q : Rat} {s : Str} (h : UNumber q s) : ∃ c t, s = c :: t ∧ Digit c := by
  cases h with
  | @mk ip fr ex f x h1 h2 h3 =>
    obtain ⟨hne, hd⟩ := isInt_digits h1
    cases ip with
    | nil => exact absurd rfl hne
    | cons c ip => exact ⟨c, _, rfl, hd c (by simp)⟩

theorem parseNumber_iff {q : Rat} {s : Str} : parseNumber s = some q ↔ Number q s := by
  constructor
  · intro h
    unfold parseNumber at h
    split at h
    · rw [Option.map_eq_some_iff] at h
      obtain ⟨x, hx, rfl⟩ := h
      exact .neg (parseUNumber_iff.1 hx)
    · exact .pos (parseUNumber_iff.1 h)
  · intro h
    cases h with
    | pos h =>
      obtain ⟨c, t, rfl, hc⟩ := uNumber_head h
      unfold parseNumber
      split
      · rename_i s' he
        cases he
        exact absurd hc (by decide)
      · exact parseUNumber_iff.2 h
    | neg h =>
      rw [parseNumber, parseUNumber_iff.2 h]; rfl

/-- Characters of numbers. -/
def numChar (c : Char) : Bool := isDigit c || c == '-' || c == '+' || c == '.' || c == 'e' || c == 'E'

theorem numChar_digit {c : Char} (h : Digit c) : numChar c = true := by
  simp [numChar, isDigit, h]

theorem exp_numChar {x : Int} {s : Str} (h : Exp x s) : ∀ c ∈ s, numChar c = true := by
  have he : ∀ e, e = 'e' ∨ e = 'E' → numChar e = true := by rintro e (rfl | rfl) <;> decide
  cases h with
  | none => simp
  | pos h hd =>
    intro c hc
    rcases List.mem_cons.1 hc with rfl | hc
    · exact he _ h
    · exact numChar_digit (hd.2 c hc)
  | plus h hd =>
    intro c hc
    rcases List.mem_cons.1 hc with rfl | hc
    · exact he _ h
    · rcases List.mem_cons.1 hc with rfl | hc
      · decide
      · exact numChar_digit (hd.2 c hc)
  | minus h hd =>
    intro c hc
    rcases List.mem_cons.1 hc with rfl | hc
    · exact he _ h
    · rcases List.mem_cons.1 hc with rfl | hc
      · decide
      · exact numChar_digit (hd.2 c hc)

theorem uNumber_numChar {q : Rat} {s : Str} (h : UNumber q s) : ∀ c ∈ s, numChar c = true := by
  cases h with
  | @mk ip fr ex f x h1 h2 h3 =>
    intro c hc
    simp only [List.mem_append] at hc
    rcases hc with (hc | hc) | hc
    · exact numChar_digit ((isInt_digits h1).2 c hc)
    · cases h2 with
      | none => cases hc
      | some hd =>
        rcases List.mem_cons.1 hc with rfl | hc
        · decide
        · exact numChar_digit (hd.2 c hc)
    · exact exp_numChar h3 c hc

theorem number_numChar {q : Rat} {s : Str} (h : Number q s) : ∀ c ∈ s, numChar c = true := by
  cases h with
  | pos h => exact uNumber_numChar h
  | neg h =>
    intro c hc
    rcases List.mem_cons.1 hc with rfl | hc
    · decide
    · exact uNumber_numChar h c hc

theorem number_head {q : Rat} {s : Str} (h : Number q s) : ∃ c t, s = c :: t ∧ (Digit c ∨ c = '-') := by
  cases h with
  | pos h => obtain ⟨c, t, h1, h2⟩ := uNumber_head h; exact ⟨c, t, h1, .inl h2⟩
  | neg h => exact ⟨'-', _, rfl, .inr rfl⟩

/-! ### Values -/

def wsChar (c : Char) : Bool := c == ' ' || c == '\t' || c == '\n' || c == '\r'

theorem wsChar_iff {c : Char} : wsChar c = true ↔ isWs c := by
  simp [wsChar, isWs, or_assoc]

def skipWs (s : Str) : Str := s.dropWhile wsChar

theorem skipWs_append {w r : Str} (hw : Ws w) (hr : ∀ c ∈ r.head?, wsChar c = false) : skipWs (w ++ r) = r :=
  (span_eq (fun c hc => wsChar_iff.2 (hw c hc)) hr).2

theorem skipWs_split (s : Str) : ∃ w, Ws w ∧ s = w ++ skipWs s :=
  ⟨s.takeWhile wsChar, fun c hc => wsChar_iff.1 (takeWhile_all c hc), (span_split s).symm⟩

mutual
def parseValue : Nat → Str → Option (JVal × Str)
  | 0, _ => none
  | n + 1, s =>
    match s with
    | [] => none
    | c :: r =>
      if c = 'n' then
        match r with
        | 'u' :: 'l' :: 'l' :: r => some (.null, r)
        | _ => none
      else if c = 't' then
        match r with
        | 'r' :: 'u' :: 'e' :: r => some (.bool true, r)
        | _ => none
      else if c = 'f' then
        match r with
        | 'a' :: 'l' :: 's' :: 'e' :: r => some (.bool false, r)
        | _ => none
      else if c = '"' then (parseChars r).map fun (v, r) => (.str v, r)
      else if c = '[' then
        match skipWs r with
        | ']' :: r => some (.arr [], r)
        | _ => (parseElements n r).map fun (vs, r) => (.arr vs, r)
      else if c = '{' then
        match skipWs r with
        | '}' :: r => some (.obj [], r)
        | _ => (parseMembers n r).map fun (ms, r) => (.obj ms, r)
      else (parseNumber (s.takeWhile numChar)).map fun q => (.num q, s.dropWhile numChar)
/-- Elements up to and with the closing bracket. -/
def parseElements : Nat → Str → Option (List JVal × Str)
  | 0, _ => none
  | n + 1, s =>
    match parseValue n (skipWs s) with
    | some (v, r) =>
      match skipWs r with
      | ',' :: r => (parseElements n r).map fun (vs, r) => (v :: vs, r)
      | ']' :: r => some ([v], r)
      | _ => none
    | none => none
/-- Members up to and with the closing brace. -/
def parseMembers : Nat → Str → Option (List (Str × JVal) × Str)
  | 0, _ => none
  | n + 1, s =>
    match parseMember n s with
    | some (m, r) =>
      match r with
      | ',' :: r => (parseMembers n r).map fun (ms, r) => (m :: ms, r)
      | '}' :: r => some ([m], r)
      | _ => none
    | none => none
/-- A member and the whitespace after it. -/
def parseMember : Nat → Str → Option ((Str × JVal) × Str)
  | 0, _ => none
  | n + 1, s =>
    match skipWs s with
    | '"' :: r =>
      match parseChars r with
      | some (k, r) =>
        match skipWs r with
        | ':' :: r =>
          match parseValue n (skipWs r) with
          | some (v, r) => some ((k, v), skipWs r)
          | none => none
        | _ => none
      | none => none
    | _ => none
end

/-- What may follow a value. -/
def Sep (r : Str) : Prop := ∀ c ∈ r.head?, numChar c = false

theorem value_first {v : JVal} {s : Str} (h : Value v s) : ∃ c t, s = c :: t ∧ wsChar c = false ∧ c ≠ ']' ∧ c ≠ '}' := by
  cases h with
  | num h =>
    obtain ⟨c, t, h1, h2⟩ := number_head h
    refine ⟨c, t, h1, ?_⟩
    rcases h2 with h2 | rfl
    · refine ⟨?_, ?_, ?_⟩
      · by_contra hw
        rw [Bool.not_eq_false, wsChar_iff] at hw
        rcases hw with rfl | rfl | rfl | rfl <;> exact absurd h2 (by decide)
      · rintro rfl; exact absurd h2 (by decide)
      · rintro rfl; exact absurd h2 (by decide)
    · decide
  | str h => obtain ⟨t, rfl, _⟩ := h; exact ⟨_, _, rfl, by decide⟩
  | _ => exact ⟨_, _, rfl, by decide⟩

theorem sep_ws {w r : Str} (hw : Ws w) (hr : Sep r) : Sep (w ++ r) := by
  cases w with
  | nil => exact hr
  | cons c w =>
    intro d hd
    cases hd
    rcases hw c (by simp) with rfl | rfl | rfl | rfl <;> decide

theorem member_pos {m : Str × JVal} {s : Str} (h : Member m s) : 0 < s.length := by
  cases h; simp; omega

theorem isString_head {v s : Str} (h : IsString v s) : ∃ t, s = '"' :: t := by
  obtain ⟨t, rfl, _⟩ := h; exact ⟨_, rfl⟩

theorem noWs {c : Char} {r : Str} (h : wsChar c = false) : ∀ d ∈ (c :: r).head?, wsChar d = false := by
  intro d hd; cases hd; exact h

theorem skipWs_cons {w r : Str} {c : Char} (hw : Ws w) (h : wsChar c = false) : skipWs (w ++ c :: r) = c :: r :=
  skipWs_append hw (noWs h)

theorem elements_head {vs : List JVal} {s : Str} (h : Elements vs s) (r : Str) :
    ∃ c t, skipWs (s ++ r) = c :: t ∧ c ≠ ']' := by
  have key : ∀ {v w s r}, Ws w → Value v s → ∃ c t, skipWs (w ++ (s ++ r)) = c :: t ∧ c ≠ ']' := by
    intro v w s r hw hv
    obtain ⟨c, t, rfl, h1, h2, _⟩ := value_first hv
    exact ⟨c, t ++ r, skipWs_cons hw h1, h2⟩
  cases h with
  | one hw hv hw' => rw [List.append_assoc, List.append_assoc]; exact key hw hv
  | cons hw hv hw' _ => rw [List.append_assoc, List.append_assoc, List.append_assoc]; exact key hw hv

theorem member_head {m : Str × JVal} {s : Str} (h : Member m s) (r : Str) : ∃ t, skipWs (s ++ r) = '"' :: t := by
  cases h with
  | mk h1 h2 =>
    obtain ⟨t, rfl⟩ := isString_head h2
    simp only [List.append_assoc, List.cons_append]
    exact ⟨_, skipWs_cons h1 (by decide)⟩

theorem members_head {ms : List (Str × JVal)} {s : Str} (h : Members ms s) (r : Str) :
    ∃ t, skipWs (s ++ r) = '"' :: t := by
  cases h with
  | one h => exact member_head h r
  | cons h _ => rw [List.append_assoc]; exact member_head h _

abbrev CV (v : JVal) (s : Str) : Prop :=
  ∀ (n : Nat) (r : Str), s.length ≤ n → Sep r → parseValue n (s ++ r) = some (v, r)
abbrev CE (vs : List JVal) (s : Str) : Prop :=
  ∀ (n : Nat) (r : Str), s.length + 1 ≤ n → parseElements n (s ++ ']' :: r) = some (vs, r)
abbrev CMs (ms : List (Str × JVal)) (s : Str) : Prop :=
  ∀ (n : Nat) (r : Str), s.length + 1 ≤ n → parseMembers n (s ++ '}' :: r) = some (ms, r)
abbrev CM (m : Str × JVal) (s : Str) : Prop :=
  ∀ (n : Nat) (r : Str), s.length ≤ n → Sep r → (∀ c ∈ r.head?, wsChar c = false) →
    parseMember n (s ++ r) = some (m, r)

theorem c_null : CV .null ['n', 'u', 'l', 'l'] := by
  intro n r hn _
  obtain ⟨n, rfl⟩ : ∃ m, n = m + 1 := ⟨n - 1, by simp at hn; omega⟩
  unfold parseValue; rfl

theorem c_true : CV (.bool true) ['t', 'r', 'u', 'e'] := by
  intro n r hn _
  obtain ⟨n, rfl⟩ : ∃ m, n = m + 1 := ⟨n - 1, by simp at hn; omega⟩
  unfold parseValue; rfl

theorem c_false : CV (.bool false) ['f', 'a', 'l', 's', 'e'] := by
  intro n r hn _
  obtain ⟨n, rfl⟩ : ∃ m, n = m + 1 := ⟨n - 1, by simp at hn; omega⟩
  unfold parseValue; rfl

theorem c_num {q : Rat} {s : Str} (h : Number q s) : CV (.num q) s := by
  intro n r hn hr
  obtain ⟨c, t, hs, hc⟩ := number_head h
  obtain ⟨n, rfl⟩ : ∃ m, n = m + 1 := ⟨n - 1, by rw [hs] at hn; simp at hn; omega⟩
  obtain ⟨e1, e2⟩ := span_eq (p := numChar) (s := s) (r := r) (number_numChar h) hr
  have hne : ∀ d, ¬ Digit d → d ≠ '-' → c ≠ d := by
    rintro d h1 h2 rfl
    exact hc.elim h1 h2
  unfold parseValue
  rw [hs, List.cons_append] at e1 e2 ⊢
  dsimp only
  rw [if_neg (hne _ (by decide) (by decide)), if_neg (hne _ (by decide) (by decide)),
    if_neg (hne _ (by decide) (by decide)), if_neg (hne _ (by decide) (by decide)),
    if_neg (hne _ (by decide) (by decide)), if_neg (hne _ (by decide) (by decide)), e1, e2, ← hs,
    parseNumber_iff.2 h]
  rfl

theorem c_str {v s : Str} (h : IsString v s) : CV (.str v) s := by
  intro n r hn _
  obtain ⟨t, rfl, ht⟩ := h
  obtain ⟨n, rfl⟩ : ∃ m, n = m + 1 := ⟨n - 1, by simp at hn; omega⟩
  unfold parseValue
  simp only [List.cons_append, List.append_assoc, List.nil_append]
  rw [parseChars_complete ht]
  rfl

theorem c_arrNil {w : Str} (hw : Ws w) : CV (.arr []) ('[' :: (w ++ [']'])) := by
  intro n r hn _
  obtain ⟨n, rfl⟩ : ∃ m, n = m + 1 := ⟨n - 1, by simp at hn; omega⟩
  unfold parseValue
  simp only [List.cons_append, List.append_assoc, List.nil_append]
  rw [skipWs_cons hw (by decide)]
  rfl

theorem c_objNil {w : Str} (hw : Ws w) : CV (.obj []) ('{' :: (w ++ ['}'])) := by
  intro n r hn _
  obtain ⟨n, rfl⟩ : ∃ m, n = m + 1 := ⟨n - 1, by simp at hn; omega⟩
  unfold parseValue
  simp only [List.cons_append, List.append_assoc, List.nil_append]
  rw [skipWs_cons hw (by decide)]
  rfl

theorem c_arr {vs : List JVal} {s : Str} (h : Elements vs s) (ih : CE vs s) : CV (.arr vs) ('[' :: (s ++ [']'])) := by
  intro n r hn _
  obtain ⟨n, rfl⟩ : ∃ m, n = m + 1 := ⟨n - 1, by simp at hn; omega⟩
  obtain ⟨c, t, e1, e2⟩ := elements_head h (']' :: r)
  unfold parseValue
  simp only [List.cons_append, List.append_assoc, List.nil_append]
  rw [e1, ih n r (by simp at hn; omega)]
  rw [if_neg (by decide), if_neg (by decide), if_neg (by decide), if_neg (by decide), if_pos trivial]
  split
  · rename_i he; cases he; exact absurd rfl e2
  · rfl

theorem c_obj {ms : List (Str × JVal)} {s : Str} (h : Members ms s) (ih : CMs ms s) :
    CV (.obj ms) ('{' :: (s ++ ['}'])) := by
  intro n r hn _
  obtain ⟨n, rfl⟩ : ∃ m, n = m + 1 := ⟨n - 1, by simp at hn; omega⟩
  obtain ⟨t, e1⟩ := members_head h ('}' :: r)
  unfold parseValue
  simp only [List.cons_append, List.append_assoc, List.nil_append]
  rw [e1, ih n r (by simp at hn; omega)]
  rfl

theorem c_one {v : JVal} {s w w' : Str} (hw : Ws w) (hv : Value v s) (hw' : Ws w') (ih : CV v s) :
    CE [v] (w ++ s ++ w') := by
  intro n r hn
  obtain ⟨n, rfl⟩ : ∃ m, n = m + 1 := ⟨n - 1, by omega⟩
  obtain ⟨c, t, hs, h1, _⟩ := value_first hv
  unfold parseElements
  simp only [List.append_assoc]
  rw [skipWs_append hw (by rw [hs]; exact noWs h1),
    ih n _ (by simp at hn; omega) (sep_ws hw' (by intro c hc; cases hc; decide))]
  dsimp only
  rw [skipWs_cons hw' (by decide)]
  rfl

theorem c_cons {v : JVal} {s w w' : Str} {vs : List JVal} {t : Str} (hw : Ws w) (hv : Value v s) (hw' : Ws w')
    (_ : Elements vs t) (ih : CV v s) (ih' : CE vs t) : CE (v :: vs) (w ++ s ++ w' ++ ',' :: t) := by
  intro n r hn
  obtain ⟨n, rfl⟩ : ∃ m, n = m + 1 := ⟨n - 1, by omega⟩
  obtain ⟨c, t', hs, h1, _⟩ := value_first hv
  unfold parseElements
  simp only [List.append_assoc, List.cons_append]
  rw [skipWs_append hw (by rw [hs]; exact noWs h1),
    ih n _ (by simp at hn; omega) (sep_ws hw' (by intro c hc; cases hc; decide))]
  dsimp only
  rw [skipWs_cons hw' (by decide)]
  change Option.map _ (parseElements n (t ++ ']' :: r)) = _
  rw [ih' n r (by simp at hn; omega)]
  rfl

theorem c_mone {m : Str × JVal} {s : Str} (_ : Member m s) (ih : CM m s) : CMs [m] s := by
  intro n r hn
  obtain ⟨n, rfl⟩ : ∃ m, n = m + 1 := ⟨n - 1, by omega⟩
  unfold parseMembers
  rw [ih n _ (by omega) (by intro c hc; cases hc; decide) (noWs (by decide))]
  rfl

theorem c_mcons {m : Str × JVal} {s : Str} {ms : List (Str × JVal)} {t : Str} (_ : Member m s) (_ : Members ms t)
    (ih : CM m s) (ih' : CMs ms t) : CMs (m :: ms) (s ++ ',' :: t) := by
  intro n r hn
  obtain ⟨n, rfl⟩ : ∃ m, n = m + 1 := ⟨n - 1, by omega⟩
  unfold parseMembers
  simp only [List.append_assoc, List.cons_append]
  rw [ih n _ (by simp at hn; omega) (by intro c hc; cases hc; decide) (noWs (by decide))]
  change Option.map _ (parseMembers n (t ++ '}' :: r)) = _
  rw [ih' n r (by simp at hn; omega)]
  rfl

theorem c_mk {k ks w1 w2 w3 : Str} {v : JVal} {s w4 : Str} (h1 : Ws w1) (hk : IsString k ks) (h2 : Ws w2)
    (h3 : Ws w3) (hv : Value v s) (h4 : Ws w4) (ih : CV v s) :
    CM (k, v) (w1 ++ ks ++ w2 ++ ':' :: (w3 ++ s ++ w4)) := by
  intro n r hn hr hr'
  obtain ⟨n, rfl⟩ : ∃ m, n = m + 1 := ⟨n - 1, by simp at hn; omega⟩
  obtain ⟨c, t', hs, hc, _⟩ := value_first hv
  obtain ⟨t, rfl, ht⟩ := hk
  unfold parseMember
  simp only [List.append_assoc, List.cons_append, List.nil_append]
  rw [skipWs_cons h1 (by decide)]
  change (match parseChars (t ++ '"' :: (w2 ++ ':' :: (w3 ++ (s ++ (w4 ++ r))))) with
    | some (k, r) => _
    | none => none) = _
  rw [parseChars_complete ht]
  dsimp only
  rw [skipWs_cons h2 (by decide)]
  change (match parseValue n (skipWs (w3 ++ (s ++ (w4 ++ r)))) with
    | some (v, r) => some ((k, v), skipWs r)
    | none => none) = _
  rw [skipWs_append h3 (by rw [hs]; exact noWs hc), ih n _ (by simp at hn; omega) (sep_ws h4 hr)]
  dsimp only
  rw [skipWs_append h4 hr']

/-- The parser finds what the grammar derives. -/
theorem parseValue_complete {v : JVal} {s : Str} (h : Value v s) : CV v s :=
  Value.rec (motive_1 := fun v s _ => CV v s) (motive_2 := fun v s _ => CE v s) (motive_3 := fun v s _ => CMs v s)
    (motive_4 := fun v s _ => CM v s) c_null c_true c_false c_num c_str c_arrNil c_arr c_objNil c_obj c_one
    c_cons c_mone c_mcons c_mk h

/-- What the parser finds, the grammar derives. -/
theorem parse_sound (n : Nat) :
    (∀ s v r, parseValue n s = some (v, r) → ∃ t, s = t ++ r ∧ Value v t) ∧
    (∀ s vs r, parseElements n s = some (vs, r) → ∃ t, s = t ++ ']' :: r ∧ Elements vs t) ∧
    (∀ s ms r, parseMembers n s = some (ms, r) → ∃ t, s = t ++ '}' :: r ∧ Members ms t) ∧
    (∀ s m r, parseMember n s = some (m, r) → ∃ t, s = t ++ r ∧ Member m t) := by
  induction n with
  | zero =>
    refine ⟨?_, ?_, ?_, ?_⟩ <;> intro s v r h
    · unfold parseValue at h; cases h
    · unfold parseElements at h; cases h
    · unfold parseMembers at h; cases h
    · unfold parseMember at h; cases h
  | succ n ih =>
    obtain ⟨iv, ie, ims, im⟩ := ih
    refine ⟨?_, ?_, ?_, ?_⟩ <;> intro s v r h
    · unfold parseValue at h
      split at h
      · cases h
      · rename_i c r0
        split at h
        · rename_i hc; subst hc
          split at h
          · cases h; exact ⟨_, rfl, .null⟩
          · cases h
        · split at h
          · rename_i hc; subst hc
            split at h
            · cases h; exact ⟨_, rfl, .true⟩
            · cases h
          · split at h
            · rename_i hc; subst hc
              split at h
              · cases h; exact ⟨_, rfl, .false⟩
              · cases h
            · split at h
              · rename_i hc; subst hc
                rw [Option.map_eq_some_iff] at h
                obtain ⟨⟨v', r'⟩, h1, h2⟩ := h
                cases h2
                obtain ⟨t, rfl, ht⟩ := parseChars_sound h1
                exact ⟨'"' :: (t ++ ['"']), by simp, .str ⟨t, rfl, ht⟩⟩
              · split at h
                · rename_i hc; subst hc
                  obtain ⟨w, hw, e⟩ := skipWs_split r0
                  split at h
                  · rename_i r1 hr1
                    cases h
                    rw [hr1] at e
                    exact ⟨'[' :: (w ++ [']']), by rw [e]; simp, .arrNil hw⟩
                  · rw [Option.map_eq_some_iff] at h
                    obtain ⟨⟨v', r'⟩, h1, h2⟩ := h
                    cases h2
                    obtain ⟨t, rfl, ht⟩ := ie _ _ _ h1
                    exact ⟨'[' :: (t ++ [']']), by simp, .arr ht⟩
                · split at h
                  · rename_i hc; subst hc
                    obtain ⟨w, hw, e⟩ := skipWs_split r0
                    split at h
                    · rename_i r1 hr1
                      cases h
                      rw [hr1] at e
                      exact ⟨'{' :: (w ++ ['}']), by rw [e]; simp, .objNil hw⟩
                    · rw [Option.map_eq_some_iff] at h
                      obtain ⟨⟨v', r'⟩, h1, h2⟩ := h
                      cases h2
                      obtain ⟨t, rfl, ht⟩ := ims _ _ _ h1
                      exact ⟨'{' :: (t ++ ['}']), by simp, .obj ht⟩
                  · rw [Option.map_eq_some_iff] at h
                    obtain ⟨q, h1, h2⟩ := h
                    cases h2
                    exact ⟨_, (span_split _).symm, .num (parseNumber_iff.1 h1)⟩
    · unfold parseElements at h
      obtain ⟨w, hw, e⟩ := skipWs_split s
      split at h
      · rename_i v1 r1 h1
        obtain ⟨t, e1, ht⟩ := iv _ _ _ h1
        obtain ⟨w', hw', e'⟩ := skipWs_split r1
        split at h
        · rename_i r2 hr2
          rw [Option.map_eq_some_iff] at h
          obtain ⟨⟨vs, r'⟩, h2, h3⟩ := h
          cases h3
          obtain ⟨t', rfl, ht'⟩ := ie _ _ _ h2
          refine ⟨w ++ t ++ w' ++ ',' :: t', ?_, .cons hw ht hw' ht'⟩
          rw [e, e1, e', hr2]; simp
        · rename_i r2 hr2
          cases h
          refine ⟨w ++ t ++ w', ?_, .one hw ht hw'⟩
          rw [e, e1, e', hr2]; simp
        · cases h
      · cases h
    · unfold parseMembers at h
      split at h
      · rename_i m r1 h1
        obtain ⟨t, rfl, ht⟩ := im _ _ _ h1
        split at h
        · rw [Option.map_eq_some_iff] at h
          obtain ⟨⟨vs, r'⟩, h2, h3⟩ := h
          cases h3
          obtain ⟨t', rfl, ht'⟩ := ims _ _ _ h2
          exact ⟨t ++ ',' :: t', by simp, .cons ht ht'⟩
        · cases h
          exact ⟨t, rfl, .one ht⟩
        · cases h
      · cases h
    · unfold parseMember at h
      obtain ⟨w1, hw1, e⟩ := skipWs_split s
      split at h
      · rename_i r0 hr0
        split at h
        · rename_i k r1 h1
          obtain ⟨t, rfl, ht⟩ := parseChars_sound h1
          obtain ⟨w2, hw2, e2⟩ := skipWs_split r1
          split at h
          · rename_i r2 hr2
            obtain ⟨w3, hw3, e3⟩ := skipWs_split r2
            split at h
            · rename_i v1 r3 h3
              cases h
              obtain ⟨t3, e4, ht3⟩ := iv _ _ _ h3
              obtain ⟨w4, hw4, e5⟩ := skipWs_split r3
              refine ⟨_, ?_, .mk hw1 ⟨t, rfl, ht⟩ hw2 hw3 ht3 hw4⟩
              rw [e, hr0, e2, hr2, e3, e4]
              conv => lhs; rw [e5]
              simp
            · cases h
          · cases h
        · cases h
      · cases h

/-- A whole JSON text. -/
def parse (s : Str) : Option JVal :=
  match parseValue s.length (skipWs s) with
  | some (v, r) => if skipWs r = [] then some v else none
  | none => none

/-- Parsing decides the grammar. -/
theorem parse_iff {s : Str} {v : JVal} : parse s = some v ↔ Text v s := by
  constructor
  · intro h
    unfold parse at h
    split at h
    · rename_i v1 r h1
      split at h
      · rename_i hr
        cases h
        obtain ⟨w, hw, e⟩ := skipWs_split s
        obtain ⟨t, e1, ht⟩ := (parse_sound _).1 _ _ _ h1
        obtain ⟨w', hw', e2⟩ := skipWs_split r
        refine ⟨w, t, w', hw, ht, hw', ?_⟩
        rw [hr, List.append_nil] at e2
        rw [e, e1, e2]; simp
      · cases h
    · cases h
  · rintro ⟨w, t, w', hw, ht, hw', rfl⟩
    obtain ⟨c, t', hs, hc, _⟩ := value_first ht
    unfold parse
    have : skipWs (w ++ t ++ w') = t ++ w' := by
      rw [List.append_assoc]; exact skipWs_append hw (by rw [hs]; exact noWs hc)
    have hsep : Sep w' := by
      have := sep_ws (r := []) hw' (by intro c hc; cases hc)
      rwa [List.append_nil] at this
    rw [this, parseValue_complete ht _ w' (by simp; omega) hsep]
    have h0 : skipWs w' = [] := by
      have := skipWs_append (r := []) hw' (by intro c hc; cases hc)
      rwa [List.append_nil] at this
    dsimp only
    rw [if_pos h0]

/-- A text denotes at most one value. -/
theorem text_unique {s : Str} {v v' : JVal} (h : Text v s) (h' : Text v' s) : v = v' :=
  Option.some.inj ((parse_iff.2 h).symm.trans (parse_iff.2 h'))

theorem text_of_value {v : JVal} {s : Str} (h : Value v s) : Text v s :=
  ⟨[], s, [], (by intro c hc; cases hc), h, (by intro c hc; cases hc), by simp⟩

theorem value_unique {s : Str} {v v' : JVal} (h : Value v s) (h' : Value v' s) : v = v' :=
  text_unique (text_of_value h) (text_of_value h')

theorem legal_iff {s : Str} : Legal s ↔ (parse s).isSome = true := by
  rw [Option.isSome_iff_exists]
  exact exists_congr fun v => parse_iff.symm

instance (s : Str) : Decidable (Legal s) := decidable_of_iff _ legal_iff.symm

end Phosphor.Json
