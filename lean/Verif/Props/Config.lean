import Verif.Proof.TraceConfig
import Verif.Props.Strings
/-
Properties C11–C14, C58: configuration strings.
-/
namespace Phosphor
open Json

/-! ### C11 Configuration string parsing -/

/-- Effect of a list of accepted key-value pairs, per field: the last value of its key. -/
def TraceConfig.expected (c : TraceConfig) (kvs : List (Str × Str)) : TraceConfig where
  mode := match lastVal "buffer-mode".toList kvs with
    | none => c.mode
    | some v => if v = "fixed".toList then .fixed else .ring
  factory := match lastVal "buffer-mode".toList kvs with
    | none => c.factory
    | some _ => 0
  size := match lastVal "buffer-size".toList kvs with
    | none => c.size
    | some v => match parseSize v with
      | .ok n => n
      | _ => 0
  callback := match lastVal "save-on-stop".toList kvs with
    | none => c.callback
    | some path => some (.file path)
  stopTracing := match lastVal "save-on-stop".toList kvs with
    | none => c.stopTracing
    | some _ => true
  enabled := match lastVal "enabled-categories".toList kvs with
    | none => c.enabled
    | some v => splitString v ','
  disabled := match lastVal "disabled-categories".toList kvs with
    | none => c.disabled
    | some v => splitString v ','

theorem lastVal_cons_eq (k v : Str) (kvs : List (Str × Str)) :
    lastVal k ((k, v) :: kvs) = some ((lastVal k kvs).getD v) := by
  unfold lastVal
  rw [List.filter_cons_of_pos (by simp)]
  cases h : (kvs.filter (fun kv => kv.1 = k)) with
  | nil => simp
  | cons a l => rw [List.getLast?_cons_cons]; simp [List.getLast?_cons]

theorem lastVal_cons_ne (key k v : Str) (kvs : List (Str × Str)) (h : k ≠ key) :
    lastVal key ((k, v) :: kvs) = lastVal key kvs := by
  unfold lastVal
  rw [List.filter_cons_of_neg (by simpa using h)]

/-- Keys are pairwise different. -/
theorem keys_ne : "buffer-mode".toList ≠ "buffer-size".toList ∧
    "buffer-mode".toList ≠ "save-on-stop".toList ∧
    "buffer-mode".toList ≠ "enabled-categories".toList ∧
    "buffer-mode".toList ≠ "disabled-categories".toList ∧
    "buffer-size".toList ≠ "save-on-stop".toList ∧
    "buffer-size".toList ≠ "enabled-categories".toList ∧
    "buffer-size".toList ≠ "disabled-categories".toList ∧
    "save-on-stop".toList ≠ "enabled-categories".toList ∧
    "save-on-stop".toList ≠ "disabled-categories".toList ∧
    "enabled-categories".toList ≠ "disabled-categories".toList := by decide

theorem applyKV_valid (c : TraceConfig) (k v : Str) (h : ValidKV k v) :
    c.applyKV k v = .ok (c.expected [(k, v)]) := by
  obtain ⟨n1, n2, n3, n4, n5, n6, n7, n8, n9, n10⟩ := keys_ne
  unfold TraceConfig.applyKV
  split
  · next hk =>
    subst hk
    rcases h.1 rfl with rfl | rfl
    · simp only [TraceConfig.expected, lastVal_cons_eq]
      simp only [lastVal_cons_ne _ _ _ _ n1, lastVal_cons_ne _ _ _ _ n2,
        lastVal_cons_ne _ _ _ _ n3, lastVal_cons_ne _ _ _ _ n4]
      rfl
    · simp only [TraceConfig.expected, lastVal_cons_eq]
      simp only [lastVal_cons_ne _ _ _ _ n1, lastVal_cons_ne _ _ _ _ n2,
        lastVal_cons_ne _ _ _ _ n3, lastVal_cons_ne _ _ _ _ n4]
      rfl
  split
  · next hk =>
    subst hk
    obtain ⟨n, hn⟩ := h.2 rfl
    rw [← parseSize_iff] at hn
    simp only [hn, Res.bind_ok, Res.pure_eq]
    simp only [TraceConfig.expected, lastVal_cons_eq]
    simp only [lastVal_cons_ne _ _ _ _ n1.symm, lastVal_cons_ne _ _ _ _ n5,
      lastVal_cons_ne _ _ _ _ n6, lastVal_cons_ne _ _ _ _ n7]
    simp [lastVal, hn]
  split
  · next hk =>
    subst hk
    simp only [TraceConfig.expected, lastVal_cons_eq]
    simp only [lastVal_cons_ne _ _ _ _ n2.symm, lastVal_cons_ne _ _ _ _ n5.symm,
      lastVal_cons_ne _ _ _ _ n8, lastVal_cons_ne _ _ _ _ n9]
    rfl
  split
  · next hk =>
    subst hk
    simp only [TraceConfig.expected, lastVal_cons_eq]
    simp only [lastVal_cons_ne _ _ _ _ n3.symm, lastVal_cons_ne _ _ _ _ n6.symm,
      lastVal_cons_ne _ _ _ _ n8.symm, lastVal_cons_ne _ _ _ _ n10]
    rfl
  split
  · next hk =>
    subst hk
    simp only [TraceConfig.expected, lastVal_cons_eq]
    simp only [lastVal_cons_ne _ _ _ _ n4.symm, lastVal_cons_ne _ _ _ _ n7.symm,
      lastVal_cons_ne _ _ _ _ n9.symm, lastVal_cons_ne _ _ _ _ n10.symm]
    rfl
  · next h1 h2 h3 h4 h5 =>
    simp only [TraceConfig.expected, lastVal_cons_ne _ _ _ _ h1, lastVal_cons_ne _ _ _ _ h2,
      lastVal_cons_ne _ _ _ _ h3, lastVal_cons_ne _ _ _ _ h4, lastVal_cons_ne _ _ _ _ h5]
    rfl

theorem applyKV_invalid (c : TraceConfig) (k v : Str) (h : ¬ ValidKV k v) :
    c.applyKV k v = .throw .invalidArgument := by
  unfold TraceConfig.applyKV
  unfold ValidKV at h
  have n1 := keys_ne.1
  split
  · next hk =>
    subst hk
    have hv : ¬ (v = "fixed".toList ∨ v = "ring".toList) := by
      intro hv; exact h ⟨fun _ => hv, fun e => absurd e n1⟩
    rw [if_neg (fun e => hv (Or.inl e)), if_neg (fun e => hv (Or.inr e))]
  · next hk1 =>
    split
    · next hk =>
      subst hk
      have hv : ¬ ∃ n, SizeText v n := by
        intro hv; exact h ⟨fun e => absurd e.symm n1, fun _ => hv⟩
      rw [parseSize_throw v hv]; rfl
    · next hk2 => exact absurd ⟨fun e => absurd e hk1, fun e => absurd e hk2⟩ h

theorem expected_cons (c : TraceConfig) (k v : Str) (kvs : List (Str × Str)) :
    (c.expected [(k, v)]).expected kvs = c.expected ((k, v) :: kvs) := by
  have hl : ∀ key, lastVal key ((k, v) :: kvs) =
      match lastVal key kvs with
      | some x => some x
      | none => lastVal key [(k, v)] := by
    intro key
    by_cases h : k = key
    · subst h
      rw [lastVal_cons_eq, lastVal_cons_eq]
      cases lastVal k kvs <;> rfl
    · rw [lastVal_cons_ne _ _ _ _ h, lastVal_cons_ne _ _ _ _ h]
      cases lastVal key kvs <;> rfl
  simp only [TraceConfig.expected, hl]
  congr 1 <;> (split <;> simp_all)

theorem applyArg_kv (c : TraceConfig) (seg k v : Str) (h : IsKV seg k v) :
    c.applyArg seg = c.applyKV k v := by
  unfold TraceConfig.applyArg
  rw [(splitString_kv_iff seg k v).2 h]

theorem applyArg_not_kv (c : TraceConfig) (seg : Str) (h : ¬ ∃ k v, IsKV seg k v) :
    c.applyArg seg = .throw .invalidArgument := by
  unfold TraceConfig.applyArg
  split
  · next k v hs => exact absurd ⟨k, v, (splitString_kv_iff seg k v).1 hs⟩ h
  · rfl

/-- C11. Every configuration string falls in exactly one of two cases. Either all its
`;`-separated segments are allowed key:value pairs: then the call succeeds and every field
has the last value given for its key (fields without a key, and unknown keys, change
nothing). Or some segment is not: then the call raises invalid_argument, and the fields
reflect exactly the segments before the first bad one. -/
theorem C11_update (c : TraceConfig) (config : Str) :
    (∃ kvs, AllKV (splitString config ';') kvs ∧
      c.updateFromString config = (c.expected kvs, .ok ())) ∨
    (∃ pre bad post kvs, splitString config ';' = pre ++ bad :: post ∧ AllKV pre kvs ∧
      (¬ ∃ k v, IsKV bad k v ∧ ValidKV k v) ∧
      c.updateFromString config = (c.expected kvs, .throw .invalidArgument)) := by
  unfold TraceConfig.updateFromString
  generalize splitString config ';' = segs
  have hexp0 : ∀ c : TraceConfig, c.expected [] = c := fun c => rfl
  induction segs generalizing c with
  | nil => left; exact ⟨[], AllKV.nil, rfl⟩
  | cons seg segs ih =>
    by_cases hgood : ∃ k v, IsKV seg k v ∧ ValidKV k v
    · obtain ⟨k, v, hkv, hval⟩ := hgood
      have hstep : c.applyArgs (seg :: segs) = (c.expected [(k, v)]).applyArgs segs := by
        rw [TraceConfig.applyArgs, applyArg_kv c seg k v hkv, applyKV_valid c k v hval]
      rcases ih (c.expected [(k, v)]) with ⟨kvs, h1, h2⟩ | ⟨pre, bad, post, kvs, h1, h2, h3, h4⟩
      · left
        exact ⟨(k, v) :: kvs, AllKV.cons hkv hval h1, by rw [hstep, h2, expected_cons]⟩
      · right
        exact ⟨seg :: pre, bad, post, (k, v) :: kvs, by rw [h1]; rfl, AllKV.cons hkv hval h2, h3,
          by rw [hstep, h4, expected_cons]⟩
    · right
      refine ⟨[], seg, segs, [], rfl, AllKV.nil, hgood, ?_⟩
      rw [hexp0]
      have : c.applyArg seg = .throw .invalidArgument := by
        by_cases hkv : ∃ k v, IsKV seg k v
        · obtain ⟨k, v, hkv⟩ := hkv
          rw [applyArg_kv c seg k v hkv]
          exact applyKV_invalid c k v (fun hv => hgood ⟨k, v, hkv, hv⟩)
        · exact applyArg_not_kv c seg hkv
      rw [TraceConfig.applyArgs, this]

/-- C11: the empty string, which has one empty segment, is refused. -/
theorem C11_empty (c : TraceConfig) :
    c.updateFromString [] = (c, .throw .invalidArgument) := rfl

example : (TraceConfig.default.updateFromString
    "buffer-mode:ring;buffer-size:4096;foo:bar;buffer-size:+12x;enabled-categories:a,b".toList)
    = ({ mode := .ring, size := 12, enabled := [['a'], ['b']] }, .ok ()) := by rfl
example : (TraceConfig.default.updateFromString "buffer-mode:ring;buffer-size:".toList)
    = ({ TraceConfig.default with mode := .ring }, .throw .invalidArgument) := by rfl

/-! ### C13 Buffer size values -/

/-- C13: accepted texts, and their values, are exactly those of `SizeText`; everything else
raises invalid_argument. -/
theorem C13_size_text (s : Str) :
    (∀ n, parseSize s = .ok n ↔ SizeText s n) ∧
      ((¬ ∃ n, SizeText s n) → parseSize s = .throw .invalidArgument) :=
  ⟨parseSize_iff s, parseSize_throw s⟩

theorem stoi_fmtInt (n : Int) :
    stoi (fmtInt n) = if intMin ≤ n ∧ n ≤ intMax then .ok n else .throw .outOfRange := by
  unfold fmtInt
  have hd : ∀ c ∈ Nat.toDigits 10 n.natAbs, Digit c :=
    fun c hc => (digit_iff c).2 (isDigit_toDigits hc)
  by_cases h : n < 0
  · rw [if_pos h]
    have := stoi_shape (ws := []) (sg := ['-']) (ds := Nat.toDigits 10 n.natAbs) (rest := [])
      (by simp) (by simp) (toDigits_ne_nil _) hd (by simp)
    simp only [List.nil_append, List.append_nil, List.cons_append] at this
    rw [this, digitsVal_toDigits]
    simp only [if_true]
    rw [show -(n.natAbs : Int) = n by omega]
  · rw [if_neg h]
    have := stoi_shape (ws := []) (sg := []) (ds := Nat.toDigits 10 n.natAbs) (rest := [])
      (by simp) (by simp) (toDigits_ne_nil _) hd (by simp)
    simp only [List.nil_append, List.append_nil] at this
    rw [this, digitsVal_toDigits]
    have hf : ¬ (([] : Str) = ['-']) := by simp
    simp only [if_neg hf]
    rw [show (n.natAbs : Int) = n by omega]

/-- C13: the decimal text of an integer `n` is accepted with value `n` when
`0 ≤ n ≤ INT_MAX` and raises invalid_argument otherwise. -/
theorem C13_decimal (n : Int) :
    parseSize (fmtInt n) =
      if 0 ≤ n ∧ n ≤ 2147483647 then .ok n.toNat else .throw .invalidArgument := by
  unfold parseSize
  rw [stoi_fmtInt]
  by_cases h : intMin ≤ n ∧ n ≤ intMax
  · rw [if_pos h]
    simp only
    unfold intMin intMax at h
    by_cases h0 : n < 0
    · rw [if_pos h0, if_neg (by omega)]
    · rw [if_neg h0, if_pos (by omega)]
  · rw [if_neg h]
    simp only
    unfold intMin intMax at h
    rw [if_neg (by omega)]

/-- C13: text whose first character is neither white space, sign nor digit is refused. -/
theorem C13_no_digits (c : Char) (s : Str) (h1 : ¬ Space c) (h2 : c ≠ '+') (h3 : c ≠ '-')
    (h4 : ¬ Digit c) : parseSize (c :: s) = .throw .invalidArgument := by
  apply parseSize_throw
  rintro ⟨n, hn⟩
  generalize hx : c :: s = x at hn
  cases hn with
  | @mk ws sg ds rest n hws hsg hne hds _ _ _ =>
    cases ws with
    | cons w ws => simp at hx; exact h1 (hx.1 ▸ hws w (by simp))
    | nil =>
      rcases hsg with rfl | rfl | ⟨rfl, _⟩
      · cases ds with
        | nil => exact hne rfl
        | cons d ds => simp at hx; exact h4 (hx.1 ▸ hds d (by simp))
      · simp at hx; exact h2 hx.1
      · simp at hx; exact h3 hx.1

example : parseSize "2147483647".toList = .ok 2147483647 ∧
    parseSize "2147483648".toList = .throw .invalidArgument ∧
    parseSize "-1".toList = .throw .invalidArgument ∧
    parseSize "abc".toList = .throw .invalidArgument := by decide
example : ¬ Space 'a' ∧ 'a' ≠ '+' ∧ 'a' ≠ '-' ∧ ¬ Digit 'a' := by unfold Space; decide

/-! ### C14 Buffer mode names -/

/-- C14: printing a valid mode and parsing it gives the mode back. -/
theorem C14_parse_print (m : BufferMode) (s : Str) (h : modeToString m = .ok s) :
    parseBufferMode s = .ok m := by
  cases m <;> cases h <;> rfl

/-- C14: parsing succeeds only on the printed names. -/
theorem C14_print_parse (m : BufferMode) (s : Str) (h : parseBufferMode s = .ok m) :
    modeToString m = .ok s := by
  unfold parseBufferMode at h
  split at h
  · next hs => subst hs; cases h; rfl
  split at h
  · next hs => subst hs; cases h; rfl
  split at h
  · next hs => subst hs; cases h; rfl
  · cases h

/-- C14: every other name, and printing any other mode value, raises invalid_argument. -/
theorem C14_invalid (s : Str) (h : ∀ m, modeToString m ≠ .ok s) (raw : Nat) :
    parseBufferMode s = .throw .invalidArgument ∧
      modeToString (.invalid raw) = .throw .invalidArgument := by
  refine ⟨?_, rfl⟩
  unfold parseBufferMode
  rw [if_neg (fun e => h .custom (by rw [e]; rfl)), if_neg (fun e => h .fixed (by rw [e]; rfl)),
    if_neg (fun e => h .ring (by rw [e]; rfl))]

/-- C14 as documented ("the comparison is case insensitive", trace_buffer.h:388-390): two
names that differ only in case parse to the same mode. -/
def C14_case_insensitive : Prop :=
  ∀ s t : Str, s.map Char.toLower = t.map Char.toLower → parseBufferMode s = parseBufferMode t

/-- The documented case insensitivity does not hold. -/
theorem C14_case_refuted : ¬ C14_case_insensitive := by
  intro h
  have := h "fixed".toList "FIXED".toList (by decide)
  revert this; decide

example : modeToString .ring = .ok "ring".toList := rfl
example : ∀ m, modeToString m ≠ .ok "Ring".toList := by
  intro m; cases m <;> simp [modeToString]

/-! ### C12 Configuration string round trip -/

/-- C12 in full: printing and parsing a configuration gives back its mode, size and category
lists. -/
def C12_round_trip (c : TraceConfig) : Prop :=
  ∃ s c', c.toString = .ok s ∧ TraceConfig.fromString s = .ok c' ∧
    c'.mode = c.mode ∧ c'.size = c.size ∧ c'.enabled = c.enabled ∧ c'.disabled = c.disabled

/-- Characters that cannot be part of a category name in a configuration string. -/
def PlainNames (l : List Str) : Prop := ∀ p ∈ l, ',' ∉ p ∧ ':' ∉ p ∧ ';' ∉ p

theorem not_mem_join {l : List Str} {x : Char} (hx : x ≠ ',') (h : ∀ p ∈ l, x ∉ p) :
    x ∉ joinString l ',' := by
  rw [joinString_eq]
  induction l with
  | nil => simp [List.intercalate]
  | cons p l ih =>
    have ih := ih (fun q hq => h q (by simp [hq]))
    have hp := h p (by simp)
    cases l with
    | nil => simpa [List.intercalate] using hp
    | cons q l =>
      simp only [List.intercalate, List.intersperse_cons_cons, List.flatten_cons,
        List.mem_append, List.mem_singleton, not_or] at ih ⊢
      exact ⟨hp, hx, ih⟩

/-- Splitting `;`-joined segments. -/
theorem split_four (a b c d : Str) (ha : ';' ∉ a) (hb : ';' ∉ b) (hc : ';' ∉ c) (hd : ';' ∉ d)
    (hne : d ≠ []) :
    splitString (a ++ ';' :: (b ++ ';' :: (c ++ ';' :: d))) ';' = [a, b, c, d] := by
  rw [splitString_eq _ _ (by simp), pieces_append ha, pieces_append hb, pieces_append hc,
    pieces_of_free hd]
  simp [dropTrailing, hne]

theorem applyArg_empty_value (c : TraceConfig) (key : Str) (hk : ':' ∉ key) :
    c.applyArg (key ++ [':']) = .throw .invalidArgument := by
  apply applyArg_not_kv
  rintro ⟨k, v, h⟩
  rw [← splitString_kv_iff, splitString_eq _ _ (by simp), pieces_append hk] at h
  simp [pieces, dropTrailing] at h

theorem applyArg_value (c : TraceConfig) (key value : Str) (hk : ':' ∉ key) (hv : ':' ∉ value)
    (hne : value ≠ []) : c.applyArg (key ++ ':' :: value) = c.applyKV key value :=
  applyArg_kv c _ key value ⟨hk, hv, Or.inl ⟨hne, rfl⟩⟩

/-- The parse of a printed configuration, step by step. -/
theorem fromString_toString (c : TraceConfig) (m : Str) (hm : modeToString c.mode = .ok m)
    (he : PlainNames c.enabled) (hd : PlainNames c.disabled) :
    ∃ s, c.toString = .ok s ∧ TraceConfig.fromString s =
      match TraceConfig.default.applyArgs
        ["buffer-mode".toList ++ ':' :: m, "buffer-size".toList ++ ':' :: fmtNat c.size,
          "enabled-categories".toList ++ ':' :: joinString c.enabled ',',
          "disabled-categories".toList ++ ':' :: joinString c.disabled ','] with
      | (c, .ok _) => .ok c
      | (_, .throw e) => .throw e
      | (_, .ub) => .ub := by
  refine ⟨("buffer-mode".toList ++ ':' :: m) ++ ';' :: (("buffer-size".toList ++ ':' :: fmtNat c.size)
    ++ ';' :: (("enabled-categories".toList ++ ':' :: joinString c.enabled ',') ++ ';' ::
      ("disabled-categories".toList ++ ':' :: joinString c.disabled ','))), ?_, ?_⟩
  · unfold TraceConfig.toString
    rw [hm]
    simp
  · unfold TraceConfig.fromString TraceConfig.updateFromString
    rw [split_four]
    · rfl
    · intro h
      cases hmode : c.mode <;> rw [hmode] at hm <;> cases hm <;> revert h <;> decide
    · intro h
      rcases List.mem_append.1 h with h | h
      · revert h; decide
      · rcases List.mem_cons.1 h with h | h
        · revert h; decide
        · exact not_mem_toDigits (c := ';') (by decide) h
    · intro h
      rcases List.mem_append.1 h with h | h
      · revert h; decide
      · rcases List.mem_cons.1 h with h | h
        · revert h; decide
        · exact not_mem_join (by decide) (fun p hp => (he p hp).2.2) h
    · intro h
      rcases List.mem_append.1 h with h | h
      · revert h; decide
      · rcases List.mem_cons.1 h with h | h
        · revert h; decide
        · exact not_mem_join (by decide) (fun p hp => (hd p hp).2.2) h
    · simp

/-- A list of categories that survives being printed and split again. -/
def Recoverable (l : List Str) : Prop := l ≠ [] ∧ l.getLast? ≠ some []

theorem join_ne_nil_of_recoverable {l : List Str} (h : Recoverable l) (hp : PlainNames l) :
    joinString l ',' ≠ [] := by
  intro hj
  have := C02_split_join l ',' (fun p hp' => (hp p hp').1) (Or.inl h)
  rw [hj] at this
  have h2 := h.2
  rw [← this] at h2
  exact h2 rfl

/-- C12, exact form for category names without `,` `:` `;`: the round trip succeeds iff the
mode is fixed or ring, the size fits an `int`, and both category lists are non-empty and
do not end with an empty name. In particular it fails for the default configuration, whose
disabled list is empty. The full claim `∀ c, C12_round_trip c` is false
(`C12_refuted`). -/
theorem C12_round_trip_partial (c : TraceConfig) (he : PlainNames c.enabled)
    (hd : PlainNames c.disabled) :
    C12_round_trip c ↔
      (c.mode = .fixed ∨ c.mode = .ring) ∧ c.size ≤ 2147483647 ∧
        Recoverable c.enabled ∧ Recoverable c.disabled := by
  have hkm : ':' ∉ "buffer-mode".toList := by decide
  have hks : ':' ∉ "buffer-size".toList := by decide
  have hke : ':' ∉ "enabled-categories".toList := by decide
  have hkd : ':' ∉ "disabled-categories".toList := by decide
  have hsz : ':' ∉ fmtNat c.size := not_mem_toDigits (by decide)
  have hje : ':' ∉ joinString c.enabled ',' := not_mem_join (by decide) (fun p hp => (he p hp).2.1)
  have hjd : ':' ∉ joinString c.disabled ',' := not_mem_join (by decide) (fun p hp => (hd p hp).2.1)
  have hps : parseSize (fmtNat c.size) =
      if c.size ≤ 2147483647 then .ok c.size else .throw .invalidArgument := by
    have := C13_decimal c.size
    have hf : fmtInt (c.size : Int) = fmtNat c.size := by simp [fmtInt, fmtNat]
    rw [hf] at this
    rw [this]
    by_cases h : c.size ≤ 2147483647
    · rw [if_pos h, if_pos (by omega)]; simp
    · rw [if_neg h, if_neg (by omega)]
  -- the four steps of the parse
  have hrec : ∀ l : List Str, PlainNames l → splitString (joinString l ',') ',' = l →
      joinString l ',' ≠ [] → Recoverable l := by
    intro l hl hs hne
    rcases (C02_split_join_iff l ',' (fun p hp => (hl p hp).1)).1 hs with h | h
    · exact h
    · subst h; exact absurd rfl hne
  constructor
  · rintro ⟨s, c', hs, hc', h1, h2, h3, h4⟩
    cases hmode : c.mode with
    | invalid raw => simp [TraceConfig.toString, hmode, modeToString] at hs
    | custom =>
      obtain ⟨s', hs', hf⟩ := fromString_toString c _ (by rw [hmode]; rfl) he hd
      rw [hs] at hs'; cases hs'
      rw [hc'] at hf
      rw [TraceConfig.applyArgs, applyArg_value _ _ _ hkm (by decide) (by decide)] at hf
      cases hf
    | fixed =>
      obtain ⟨s', hs', hf⟩ := fromString_toString c _ (by rw [hmode]; rfl) he hd
      rw [hs] at hs'; cases hs'
      rw [hc'] at hf
      refine ⟨Or.inl rfl, ?_⟩
      rw [TraceConfig.applyArgs, applyArg_value _ _ _ hkm (by decide) (by decide)] at hf
      rw [show TraceConfig.default.applyKV "buffer-mode".toList "fixed".toList
        = .ok TraceConfig.default from rfl] at hf
      simp only at hf
      rw [TraceConfig.applyArgs, applyArg_value _ _ _ hks hsz (toDigits_ne_nil _)] at hf
      simp only [TraceConfig.applyKV, if_neg keys_ne.1.symm, if_true, hps] at hf
      by_cases hsize : c.size ≤ 2147483647
      · refine ⟨hsize, ?_⟩
        simp only [if_pos hsize, Res.bind_ok, Res.pure_eq] at hf
        by_cases hE : joinString c.enabled ',' = []
        · rw [hE, TraceConfig.applyArgs, applyArg_empty_value _ _ hke] at hf; cases hf
        rw [TraceConfig.applyArgs, applyArg_value _ _ _ hke hje hE] at hf
        rw [show ∀ (c : TraceConfig) v, c.applyKV "enabled-categories".toList v
          = .ok { c with enabled := splitString v ',' } from fun _ _ => rfl] at hf
        simp only at hf
        by_cases hD : joinString c.disabled ',' = []
        · rw [hD, TraceConfig.applyArgs, applyArg_empty_value _ _ hkd] at hf; cases hf
        rw [TraceConfig.applyArgs, applyArg_value _ _ _ hkd hjd hD] at hf
        rw [show ∀ (c : TraceConfig) v, c.applyKV "disabled-categories".toList v
          = .ok { c with disabled := splitString v ',' } from fun _ _ => rfl] at hf
        simp only [TraceConfig.applyArgs, Res.ok.injEq] at hf
        subst hf
        exact ⟨hrec _ he h3 hE, hrec _ hd h4 hD⟩
      · simp only [if_neg hsize, Res.bind_throw] at hf; cases hf
    | ring =>
      obtain ⟨s', hs', hf⟩ := fromString_toString c _ (by rw [hmode]; rfl) he hd
      rw [hs] at hs'; cases hs'
      rw [hc'] at hf
      refine ⟨Or.inr rfl, ?_⟩
      rw [TraceConfig.applyArgs, applyArg_value _ _ _ hkm (by decide) (by decide)] at hf
      rw [show TraceConfig.default.applyKV "buffer-mode".toList "ring".toList
        = .ok { TraceConfig.default with mode := .ring } from rfl] at hf
      simp only at hf
      rw [TraceConfig.applyArgs, applyArg_value _ _ _ hks hsz (toDigits_ne_nil _)] at hf
      simp only [TraceConfig.applyKV, if_neg keys_ne.1.symm, if_true, hps] at hf
      by_cases hsize : c.size ≤ 2147483647
      · refine ⟨hsize, ?_⟩
        simp only [if_pos hsize, Res.bind_ok, Res.pure_eq] at hf
        by_cases hE : joinString c.enabled ',' = []
        · rw [hE, TraceConfig.applyArgs, applyArg_empty_value _ _ hke] at hf; cases hf
        rw [TraceConfig.applyArgs, applyArg_value _ _ _ hke hje hE] at hf
        rw [show ∀ (c : TraceConfig) v, c.applyKV "enabled-categories".toList v
          = .ok { c with enabled := splitString v ',' } from fun _ _ => rfl] at hf
        simp only at hf
        by_cases hD : joinString c.disabled ',' = []
        · rw [hD, TraceConfig.applyArgs, applyArg_empty_value _ _ hkd] at hf; cases hf
        rw [TraceConfig.applyArgs, applyArg_value _ _ _ hkd hjd hD] at hf
        rw [show ∀ (c : TraceConfig) v, c.applyKV "disabled-categories".toList v
          = .ok { c with disabled := splitString v ',' } from fun _ _ => rfl] at hf
        simp only [TraceConfig.applyArgs, Res.ok.injEq] at hf
        subst hf
        exact ⟨hrec _ he h3 hE, hrec _ hd h4 hD⟩
      · simp only [if_neg hsize, Res.bind_throw] at hf; cases hf
  · rintro ⟨hmode, hsize, hE, hD⟩
    have hEs := C02_split_join c.enabled ',' (fun p hp => (he p hp).1) (Or.inl hE)
    have hDs := C02_split_join c.disabled ',' (fun p hp => (hd p hp).1) (Or.inl hD)
    have hEn := join_ne_nil_of_recoverable hE he
    have hDn := join_ne_nil_of_recoverable hD hd
    obtain ⟨m, hm, c0, hc0, hc0m⟩ : ∃ m, modeToString c.mode = .ok m ∧
        ∃ c0, TraceConfig.default.applyArg ("buffer-mode".toList ++ ':' :: m) = .ok c0 ∧
          c0.mode = c.mode := by
      rcases hmode with h | h <;> rw [h]
      · exact ⟨_, rfl, TraceConfig.default, rfl, rfl⟩
      · exact ⟨_, rfl, { TraceConfig.default with mode := .ring }, rfl, rfl⟩
    obtain ⟨s, hs, hf⟩ := fromString_toString c m hm he hd
    rw [TraceConfig.applyArgs, hc0] at hf
    simp only at hf
    rw [TraceConfig.applyArgs, applyArg_value _ _ _ hks hsz (toDigits_ne_nil _)] at hf
    simp only [TraceConfig.applyKV, if_neg keys_ne.1.symm, if_true, hps, if_pos hsize,
      Res.bind_ok, Res.pure_eq] at hf
    rw [TraceConfig.applyArgs, applyArg_value _ _ _ hke hje hEn] at hf
    rw [show ∀ (c : TraceConfig) v, c.applyKV "enabled-categories".toList v
      = .ok { c with enabled := splitString v ',' } from fun _ _ => rfl] at hf
    simp only at hf
    rw [TraceConfig.applyArgs, applyArg_value _ _ _ hkd hjd hDn] at hf
    rw [show ∀ (c : TraceConfig) v, c.applyKV "disabled-categories".toList v
      = .ok { c with disabled := splitString v ',' } from fun _ _ => rfl] at hf
    simp only [TraceConfig.applyArgs] at hf
    exact ⟨s, _, hs, hf, hc0m, rfl, hEs, hDs⟩

/-- C12 is violated already by the default configuration: parsing its own string throws. -/
theorem C12_refuted :
    (∃ s, TraceConfig.default.toString = .ok s ∧
      TraceConfig.fromString s = .throw .invalidArgument) ∧ ¬ ∀ c, C12_round_trip c := by
  have h : TraceConfig.default.toString = .ok
      "buffer-mode:fixed;buffer-size:8388608;enabled-categories:*;disabled-categories:".toList := by
    decide
  have h2 : TraceConfig.fromString
      "buffer-mode:fixed;buffer-size:8388608;enabled-categories:*;disabled-categories:".toList
      = .throw .invalidArgument := by decide
  refine ⟨⟨_, h, h2⟩, ?_⟩
  intro hall
  obtain ⟨s, c', hs, hc, _⟩ := hall TraceConfig.default
  rw [h] at hs; cases hs
  rw [h2] at hc; cases hc

example : C12_round_trip { TraceConfig.default with
    mode := .ring, size := 1048576, enabled := [['*'], "memcached".toList],
    disabled := ["net".toList] } :=
  (C12_round_trip_partial _ (by unfold PlainNames; decide) (by unfold PlainNames; decide)).2
    (by unfold Recoverable; decide)

/-! ### C58 (configuration part): the start-up trace from the environment -/

/-- C58: a start-up trace is configured iff the variable is set and not empty, and it is then
the parse of the variable's value; a parse error is propagated. -/
theorem C58_startup_trace (env : Option Str) :
    (env = none ∨ (∃ v, env = some v ∧ cstr v = []) → fromEnvironment env = .ok none) ∧
    (∀ v, env = some v → cstr v ≠ [] →
      (∀ c, TraceConfig.fromString (cstr v) = .ok c → fromEnvironment env = .ok (some c)) ∧
      (∀ e, TraceConfig.fromString (cstr v) = .throw e → fromEnvironment env = .throw e)) := by
  refine ⟨?_, ?_⟩
  · rintro (rfl | ⟨v, rfl, hv⟩)
    · rfl
    · simp [fromEnvironment, hv]
  · rintro v rfl hv
    have : (cstr v).length ≠ 0 := by simpa using hv
    refine ⟨fun c hc => ?_, fun e he => ?_⟩
    · simp [fromEnvironment, this, hc]
    · simp [fromEnvironment, this, he]

example : fromEnvironment (some "buffer-size:65536".toList)
    = .ok (some { TraceConfig.default with size := 65536 }) := by decide

end Phosphor
