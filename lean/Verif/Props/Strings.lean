import Verif.Proof.Escape
import Verif.Proof.Split
import Verif.Proof.Glob
import Verif.Proof.Replace
import Verif.Proof.InlineZString
/-
Properties C01–C05: string utilities.
-/
namespace Phosphor
open Json Glob

/-! ### C01 JSON string encoding is loss-free -/

/-- C01, exact form. A text decoder following RFC 8259 accepts `to_json(s)` iff `s` contains
no control byte without a two-character escape, and then reads back exactly `s`.
The full claim (accepted for *every* `s`) is false, see `C01_refuted`. -/
theorem C01_toJson_decodes_partial (s v : Str) :
    IsString v (toJson s) ↔
      v = s ∧ ∀ c ∈ s, 0x20 ≤ c.toNat ∨ c = '\x08' ∨ c = '\x0c' ∨ c = '\n' ∨ c = '\r' ∨ c = '\t' :=
  isString_toJson_iff

/-- C01, no byte is lost or altered: different byte strings have different encodings
(all byte strings, control bytes included). -/
theorem C01_toJson_injective (s t : Str) (h : toJson s = toJson t) : s = t := by
  apply escapeJson_injective
  simpa [toJson] using h

/-- C01 is violated: the encoding of the one-byte string `\x01` is not a JSON string. -/
theorem C01_refuted : ∃ s : Str, ∀ v, ¬ IsString v (toJson s) :=
  ⟨['\x01'], fun v h => by
    have := (C01_toJson_decodes_partial _ _).1 h
    exact absurd (this.2 '\x01' (by simp)) (by decide)⟩

example : IsString "a\"/\\\n\té".toList (toJson "a\"/\\\n\té".toList) :=
  (C01_toJson_decodes_partial _ _).2 ⟨rfl, by decide⟩
example : toJson "a\"b/".toList = "\"a\\\"b\\/\"".toList := by decide

/-! ### C02 Splitting and joining -/

/-- C02: pieces never contain the delimiter. -/
theorem C02_split_pieces_free (s : Str) (d : Char) : ∀ p ∈ splitString s d, d ∉ p := by
  by_cases h : s = []
  · subst h; simp [splitString]
  · rw [splitString_eq s d h]
    intro p hp
    apply pieces_free d s p
    unfold dropTrailing at hp
    split at hp
    · exact List.dropLast_subset _ hp
    · exact hp

/-- C02: `join_string` is the ordinary interleaving with the delimiter. -/
theorem C02_join_intercalate (ps : List Str) (d : Char) :
    joinString ps d = List.intercalate [d] ps := joinString_eq ps d

/-- C02: joining the pieces gives back the string, except that exactly one trailing
delimiter is lost when there is one. -/
theorem C02_join_split (s : Str) (d : Char) :
    joinString (splitString s d) d = if s.getLast? = some d then s.dropLast else s := by
  by_cases h : s = []
  · subst h; simp [splitString, joinString]
  rw [splitString_eq s d h, joinString_eq]
  have hI := pieces_intercalate d s
  have hfree := pieces_free d s
  unfold dropTrailing
  rcases List.eq_nil_or_concat (pieces d s) with hp | ⟨l, p, hp⟩
  · exact absurd hp (pieces_ne_nil d s)
  rw [hp] at hI hfree ⊢
  have hlast : (l ++ [p]).getLast? = some p := by simp
  simp only [List.concat_eq_append] at hI hfree ⊢
  rw [hlast]
  have hcat : ∀ l : List Str, l ≠ [] →
      List.intercalate [d] (l ++ [p]) = List.intercalate [d] l ++ d :: p := by
    intro l
    induction l with
    | nil => intro h; exact absurd rfl h
    | cons a l ih =>
      intro _
      cases l with
      | nil => simp [List.intercalate]
      | cons b l =>
        have := ih (by simp)
        simp only [List.intercalate, List.cons_append] at this ⊢
        simp only [List.intersperse_cons_cons, List.flatten_cons, this]
        simp [List.append_assoc]
  by_cases hpe : p = []
  · subst hpe
    simp only [if_true, List.dropLast_concat]
    by_cases hl : l = []
    · subst hl; simp [List.intercalate] at hI; exact absurd hI.symm (fun e => h e.symm)
    · rw [hcat l hl] at hI
      rw [← hI]; simp
  · rw [if_neg (by simpa using hpe)]
    have hd : d ∉ p := hfree p (by simp)
    have hsl : s.getLast? = p.getLast? := by
      rw [← hI]
      by_cases hl : l = []
      · subst hl; simp [List.intercalate]
      · rw [hcat l hl]
        cases p with
        | nil => exact absurd rfl hpe
        | cons a p => rw [List.getLast?_append]; simp [List.getLast?_cons]
    rw [hI, if_neg]
    rw [hsl]
    intro hc
    exact hd (List.mem_of_getLast? hc)

/-- C02: splitting a joined list of delimiter-free pieces gives the list back whenever its
last piece is not empty, or it is the single empty piece. -/
theorem C02_split_join (ps : List Str) (d : Char) (hfree : ∀ p ∈ ps, d ∉ p)
    (hlast : (ps ≠ [] ∧ ps.getLast? ≠ some []) ∨ ps = [[]]) :
    splitString (joinString ps d) d = ps := by
  rcases hlast with ⟨hne, hl⟩ | rfl
  · rw [joinString_eq]
    have hp := pieces_intercalate_of_free hne hfree
    have hs : List.intercalate [d] ps ≠ [] := by
      intro h
      rw [h] at hp
      simp [pieces] at hp
      rw [← hp] at hl
      exact hl rfl
    rw [splitString_eq _ _ hs, hp, dropTrailing_of_last hl]
  · rfl

/-- C02: the condition on the last piece is needed: otherwise the list is not recovered. -/
theorem C02_split_join_iff (ps : List Str) (d : Char) (hfree : ∀ p ∈ ps, d ∉ p) :
    splitString (joinString ps d) d = ps ↔
      (ps ≠ [] ∧ ps.getLast? ≠ some []) ∨ ps = [[]] := by
  refine ⟨fun h => ?_, C02_split_join ps d hfree⟩
  by_cases hs : joinString ps d = []
  · right; rw [hs] at h; exact h.symm
  · left
    have hne : ps ≠ [] := by rintro rfl; exact hs rfl
    refine ⟨hne, fun hl => ?_⟩
    rw [splitString_eq _ _ hs, joinString_eq, pieces_intercalate_of_free hne hfree] at h
    simp only [dropTrailing, hl, if_true] at h
    have := congrArg List.length h
    rw [List.length_dropLast] at this
    have : 0 < ps.length := List.length_pos_iff.2 hne
    omega

example : splitString "a,,b,".toList ',' = ["a".toList, [], "b".toList] := by decide
example : splitString ",,,".toList ',' = [[], [], []] := by decide
example : (["a".toList, [], "b".toList] ≠ [] ∧ ["a".toList, [], "b".toList].getLast? ≠ some []) ∧
    ∀ p ∈ ["a".toList, [], "b".toList], ',' ∉ p := by decide

/-! ### C03 Category glob patterns -/

/-- C03: a pattern without `*` and `+` matches exactly the strings of the same length that
agree with it at every position that is not `?`. -/
theorem C03_simple (p s : Str) (hp : Simple p) :
    globMatch p s = true ↔
      p.length = s.length ∧ ∀ i, i < p.length → p[i]? = some '?' ∨ p[i]? = s[i]? := by
  rw [← matches_simple_iff hp]
  unfold globMatch
  have := globLoop_simple_append (q := []) (s := s) hp
  rw [List.append_nil] at this
  rw [this]
  constructor
  · rintro ⟨a, b, rfl, hm, hb⟩
    simp [globLoop] at hb
    subst hb; simpa using hm
  · intro hm; exact ⟨s, [], by simp, hm, by simp [globLoop]⟩

/-- C03: `prefix*tail` with literal `tail`: some beginning of the subject matches the prefix
and the tail is a subsequence of the rest. -/
theorem C03_star_tail (p t s : Str) (hp : Simple p) (ht : Literal t) :
    globMatch (p ++ '*' :: t) s = true ↔
      ∃ a b, s = a ++ b ∧ Matches p a ∧ t.Sublist b := by
  unfold globMatch
  rw [globLoop_simple_append hp]
  constructor
  · rintro ⟨a, b, rfl, hm, h⟩
    refine ⟨a, b, rfl, hm, ?_⟩
    rw [globLoop] at h
    simpa [globLoop_star_literal ht] using h
  · rintro ⟨a, b, rfl, hm, h⟩
    refine ⟨a, b, rfl, hm, ?_⟩
    rw [globLoop]
    simpa [globLoop_star_literal ht] using h

/-- C03: `prefix+tail`: the same with at least one character between. -/
theorem C03_plus_tail (p t s : Str) (hp : Simple p) (ht : Literal t) :
    globMatch (p ++ '+' :: t) s = true ↔
      ∃ a c b, s = a ++ c :: b ∧ Matches p a ∧ t.Sublist b := by
  unfold globMatch
  rw [globLoop_simple_append hp]
  constructor
  · rintro ⟨a, b, rfl, hm, h⟩
    cases b with
    | nil => simp [globLoop] at h
    | cons c b =>
      refine ⟨a, c, b, rfl, hm, ?_⟩
      rw [globLoop] at h
      simpa [globLoop_star_literal ht] using h
  · rintro ⟨a, c, b, rfl, hm, h⟩
    refine ⟨a, c :: b, rfl, hm, ?_⟩
    rw [globLoop]
    simpa [globLoop_star_literal ht] using h

/-- C03: `prefix*` with literal prefix matches exactly the strings starting with it. -/
theorem C03_prefix_star (p s : Str) (hp : Literal p) :
    globMatch (p ++ ['*']) s = true ↔ p <+: s := by
  have hs : Simple p := fun c hc => ⟨(hp c hc).2.1, (hp c hc).2.2⟩
  rw [C03_star_tail p [] s hs (by simp [Literal])]
  constructor
  · rintro ⟨a, b, rfl, hm, _⟩
    rw [matches_literal hp] at hm
    subst hm; exact List.prefix_append _ _
  · rintro ⟨b, rfl⟩
    exact ⟨p, b, rfl, (matches_literal hp).2 rfl, by simp⟩

/-- C03: `prefix+` with literal prefix matches exactly its proper extensions. -/
theorem C03_prefix_plus (p s : Str) (hp : Literal p) :
    globMatch (p ++ ['+']) s = true ↔ p <+: s ∧ p ≠ s := by
  have hs : Simple p := fun c hc => ⟨(hp c hc).2.1, (hp c hc).2.2⟩
  rw [C03_plus_tail p [] s hs (by simp [Literal])]
  constructor
  · rintro ⟨a, c, b, rfl, hm, _⟩
    rw [matches_literal hp] at hm
    subst hm; exact ⟨List.prefix_append _ _, by simp⟩
  · rintro ⟨⟨b, rfl⟩, hne⟩
    cases b with
    | nil => simp at hne
    | cons c b => exact ⟨p, c, b, rfl, (matches_literal hp).2 rfl, by simp⟩

/-- C03: every string of the ordinary glob language of a pattern with one `*` or `+` and a
literal tail is accepted. -/
theorem C03_complete (p t s : Str) (k : Char) (hk : k = '*' ∨ k = '+') (hp : Simple p)
    (ht : Literal t) (h : Matches (p ++ k :: t) s) : globMatch (p ++ k :: t) s = true := by
  obtain ⟨a, b, rfl, hm, hb⟩ := (matches_simple_append hp).1 h
  rcases hk with rfl | rfl
  · rw [C03_star_tail p t _ hp ht]
    cases hb with
    | lit => contradiction
    | star hb =>
      rw [matches_literal ht] at hb
      subst hb
      exact ⟨a, _, rfl, hm, List.sublist_append_right _ _⟩
  · rw [C03_plus_tail p t _ hp ht]
    cases hb with
    | lit => contradiction
    | plus hb =>
      rw [matches_literal ht] at hb
      subst hb
      exact ⟨a, _, _, rfl, hm, List.sublist_append_right _ _⟩

/-- The matcher is not the ordinary glob matcher: it over-accepts after a star, -/
theorem C03_overaccepts : globMatch "*a".toList "ab".toList = true ∧
    ¬ Matches "*a".toList "ab".toList := by
  refine ⟨by decide, fun h => ?_⟩
  have hs : "ab".toList = ['a', 'b'] := rfl
  have hp : "*a".toList = ['*', 'a'] := rfl
  rw [hs, hp] at h
  generalize hx : ['a', 'b'] = x at h
  cases h with
  | lit _ h _ _ => exact absurd rfl h
  | @star a p s h =>
    rw [matches_literal (by decide)] at h
    subst h
    have := congrArg List.getLast? hx
    simp at this

/-- and under-accepts `?`, `*`, `+` after a star. -/
theorem C03_underaccepts : globMatch "*?".toList "a".toList = false ∧
    Matches "*?".toList "a".toList :=
  ⟨by decide, Matches.star (a := []) (Matches.any Matches.nil)⟩

example : Simple "a?c".toList ∧ globMatch "a?c".toList "abc".toList = true := by decide
example : Literal "ab".toList ∧ globMatch "ab*".toList "abc".toList = true ∧
    globMatch "ab+".toList "ab".toList = false := by decide

/-! ### C04 string_replace -/

/-- C04: if `pat` (non-empty) occurs, `string_replace` rewrites its leftmost occurrence and
nothing else. -/
theorem C04_replace_first (s pat to pre post : Str) (hne : pat ≠ [])
    (hs : s = pre ++ pat ++ post)
    (hfirst : ∀ n, n < pre.length → ¬ pat <+: s.drop n) :
    stringReplace s pat to = pre ++ to ++ post := by
  unfold stringReplace
  rw [if_neg hne]
  have hocc : pat <+: s.drop pre.length := by subst hs; simp
  cases hf : findFrom pat 0 s with
  | none => exact absurd hocc (findFrom_none hf _ (by subst hs; simp))
  | some n =>
    obtain ⟨_, _, h3, h4⟩ := findFrom_some hf
    have hn : n = pre.length := by
      rcases Nat.lt_trichotomy n pre.length with h | h | h
      · exact absurd (by simpa using h3) (hfirst n h)
      · exact h
      · exact absurd (by simpa using hocc) (h4 _ (Nat.zero_le _) h)
    subst hn hs
    simp [List.drop_append]

/-- C04: if `pat` is empty or does not occur the string is unchanged. -/
theorem C04_replace_none (s pat to : Str) (h : pat = [] ∨ ¬ ∃ pre post, s = pre ++ pat ++ post) :
    stringReplace s pat to = s := by
  unfold stringReplace
  rcases h with rfl | h
  · simp
  · by_cases hp : pat = []
    · simp [hp]
    rw [if_neg hp]
    cases hf : findFrom pat 0 s with
    | none => rfl
    | some n =>
      obtain ⟨_, _, ⟨post, h3⟩, _⟩ := findFrom_some hf
      refine absurd ⟨s.take n, post, ?_⟩ h
      have := List.take_append_drop n s
      rw [List.append_assoc, h3]; simp

/-- Every occurring pattern has a leftmost occurrence, so the two theorems above cover all
inputs. -/
theorem C04_cases (s pat : Str) :
    (pat = [] ∨ ¬ ∃ pre post, s = pre ++ pat ++ post) ∨
    ∃ pre post, pat ≠ [] ∧ s = pre ++ pat ++ post ∧
      ∀ n, n < pre.length → ¬ pat <+: s.drop n := by
  by_cases hp : pat = []
  · exact Or.inl (Or.inl hp)
  cases hf : findFrom pat 0 s with
  | none =>
    left; right
    rintro ⟨pre, post, rfl⟩
    exact findFrom_none hf pre.length (by simp) (by simp)
  | some n =>
    right
    obtain ⟨_, h2, ⟨post, h3⟩, h4⟩ := findFrom_some hf
    refine ⟨s.take n, post, hp, ?_, ?_⟩
    · have := List.take_append_drop n s
      rw [List.append_assoc, h3]; simp
    · intro m hm
      rw [List.length_take] at hm
      simpa using h4 m (Nat.zero_le _) (by omega)

example : stringReplace "a%pb%p".toList "%p".toList "42".toList = "a42b%p".toList := by decide

/-! ### C05 Inline strings -/

/-- C05: an inline string built from a `std::string`/`string_view` reads back, without
leaving its storage, as the first `max_length` bytes cut at the first NUL. -/
theorem C05_read_back (m : Nat) (s : Str) :
    (izOfString m s >>= izToString m) = .ok (cstr (s.take m)) := by
  unfold izOfString
  rw [izMake_ok (by omega)]
  simp only [Res.bind_ok]
  rw [izToString_eq (by simp; omega), cstr_append_replicate]
  congr 2
  rw [List.take_eq_take_min, List.take_eq_take_min (i := m)]
  congr 1; omega

/-- C05: strings that fit and have no NUL read back unchanged. -/
theorem C05_short_exact (m : Nat) (s : Str) (hlen : s.length ≤ m) (hnul : '\x00' ∉ s) :
    (izOfString m s >>= izToString m) = .ok s := by
  rw [C05_read_back, List.take_of_length_le hlen, cstr_of_free hnul]

/-- C05: from a NUL-terminated string at the start of any memory `text ++ NUL :: junk`. -/
theorem C05_cstring (m : Nat) (text junk : Str) (hnul : '\x00' ∉ text) :
    (izOfCString m (text ++ '\x00' :: junk) >>= izToString m) = .ok (text.take m) := by
  have hc : cstr (text ++ '\x00' :: junk) = text := by
    rw [cstr_append_nul, cstr_of_free hnul]
  unfold izOfCString strlen
  rw [if_pos (by simp), hc]
  simp only [Res.bind_ok]
  rw [izMake_ok (by simp; omega)]
  simp only [Res.bind_ok]
  rw [izToString_eq (by simp; omega), cstr_append_replicate]
  congr 1
  have : List.take (min text.length m) (text ++ '\x00' :: junk) = text.take m := by
    rw [List.take_append_of_le_length (by omega), List.take_eq_take_min, List.take_eq_take_min (i := m)]
    congr 1; omega
  rw [this]
  exact cstr_of_free (fun h => hnul (List.mem_of_mem_take h))

/-- C05: with an explicit length the constructor is defined whenever that many bytes are
readable, and reads back the first `min len max_length` of them cut at the first NUL. -/
theorem C05_explicit_length (m len : Nat) (src : Str) (h : min len m ≤ src.length) :
    (izMake m src len >>= izToString m) = .ok (cstr (src.take (min len m))) := by
  rw [izMake_ok h]
  simp only [Res.bind_ok]
  rw [izToString_eq (by simp; omega), cstr_append_replicate]

example : (izOfString 8 "hello world".toList >>= izToString 8) = .ok "hello wo".toList := by decide
example : min 3 8 ≤ ("abc".toList : Str).length := by decide

end Phosphor
