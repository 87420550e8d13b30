import Verif.Proof.JsonParse
import Verif.Props.Event
/-
Parsing the JSON of an event, member by member.
-/
namespace Phosphor
open Json

/-! ### Strings -/

/-- A quote inside the text of a string stands for a quote further to the left in its value. -/
theorem quote_left {v t : Str} (h : Chars v t) {p : Nat} (hp : t[p]? = some '"') :
    ∃ q, q < p ∧ v[q]? = some '"' := by
  induction h generalizing p with
  | nil => simp at hp
  | @plain c v t h1 h2 h3 _ ih =>
    cases p with
    | zero => simp at hp; exact absurd hp h2
    | succ p =>
      obtain ⟨q, h4, h5⟩ := ih (by simpa using hp)
      exact ⟨q + 1, by omega, by simpa using h5⟩
  | @short e c v t h1 _ ih =>
    match p, hp with
    | 0, hp => simp at hp
    | 1, hp =>
      simp at hp
      subst hp
      have : shortEscape '"' = some '"' := by decide
      rw [this] at h1
      cases h1
      exact ⟨0, by omega, rfl⟩
    | p + 2, hp =>
      obtain ⟨q, h4, h5⟩ := ih (p := p) (by simpa using hp)
      exact ⟨q + 1, by omega, by simpa using h5⟩
  | @unicode a b c d i j k l v t h1 h2 h3 h4 _ ih =>
    have hq : hexVal '"' = none := by decide
    match p, hp with
    | 0, hp => simp at hp
    | 1, hp => simp at hp
    | 2, hp => simp at hp; subst hp; rw [hq] at h1; cases h1
    | 3, hp => simp at hp; subst hp; rw [hq] at h2; cases h2
    | 4, hp => simp at hp; subst hp; rw [hq] at h3; cases h3
    | 5, hp => simp at hp; subst hp; rw [hq] at h4; cases h4
    | p + 6, hp =>
      obtain ⟨q, h5, h6⟩ := ih (p := p) (by simpa using hp)
      have hl := utf8_length (4096 * i + 256 * j + 16 * k + l)
      refine ⟨(utf8 (4096 * i + 256 * j + 16 * k + l)).length + q, by omega, ?_⟩
      rw [List.getElem?_append_right (by omega)]
      simpa using h6

/-- Bytes written between quotes as they are denote a string that starts with them only if none of them
needs escaping, and then they denote themselves. -/
theorem parseChars_raw {x y rest r : Str} (hxy : x <+: y) (h : parseChars (x ++ '"' :: rest) = some (y, r)) :
    (∀ c ∈ x, PlainChar c) ∧ y = x ∧ r = rest := by
  obtain ⟨t, e, ht⟩ := parseChars_sound h
  have hl := chars_length ht
  have hl' := hxy.length_le
  rcases Nat.lt_or_ge x.length t.length with hlt | hge
  · exfalso
    have step : ∀ p : Nat, p ≤ x.length → t[p]? = some '"' → ∃ q, q < p ∧ t[q]? = some '"' := by
      intro p hp h1
      obtain ⟨q, h2, h3⟩ := quote_left ht h1
      obtain ⟨z, rfl⟩ := hxy
      rw [List.getElem?_append_left (by omega)] at h3
      refine ⟨q, h2, ?_⟩
      have h4 : (t ++ '"' :: r)[q]? = some '"' := by
        rw [← e, List.getElem?_append_left (by omega)]; exact h3
      rwa [List.getElem?_append_left (by omega)] at h4
    have key : ∀ p : Nat, p ≤ x.length → t[p]? = some '"' → False := by
      intro p
      induction p using Nat.strongRecOn with
      | _ p ih =>
        intro hp h1
        obtain ⟨q, h2, h3⟩ := step p hp h1
        exact ih q h2 (by omega) h3
    have h1 : t[x.length]? = some '"' := by
      have h2 : (t ++ '"' :: r)[x.length]? = some '"' := by
        rw [← e, List.getElem?_append_right (Nat.le_refl _)]; simp
      rwa [List.getElem?_append_left hlt] at h2
    exact key _ (Nat.le_refl _) h1
  · obtain ⟨h1, h2⟩ := List.append_inj e (by omega)
    subst h1
    cases h2
    have h3 : x = y := hxy.eq_of_length (by omega)
    subst h3
    exact ⟨chars_self_iff.1 ht, rfl, rfl⟩

/-- The text of `to_json` is read back exactly if all bytes are safe, and not at all otherwise. -/
theorem parseChars_escape {x rest y r : Str} (h : parseChars (escapeJson x ++ '"' :: rest) = some (y, r)) :
    TextRepresentable x ∧ y = x ∧ r = rest := by
  induction x generalizing y r with
  | nil =>
    unfold parseChars at h
    simp only [escapeJson_nil, List.nil_append, if_pos] at h
    cases h
    exact ⟨(by intro c hc; cases hc), rfl, rfl⟩
  | cons c x ih =>
    rw [escapeJson_cons] at h
    have fin : ∀ (o : Option (Str × Str)), o = parseChars (escapeJson x ++ '"' :: rest) → JsonSafe c →
        (o.map fun (v, r) => (c :: v, r)) = some (y, r) → TextRepresentable (c :: x) ∧ y = c :: x ∧ r = rest := by
      rintro o rfl hs hm
      rw [Option.map_eq_some_iff] at hm
      obtain ⟨⟨v, r'⟩, h1, h2⟩ := hm
      cases h2
      obtain ⟨i1, rfl, rfl⟩ := ih h1
      refine ⟨?_, rfl, rfl⟩
      intro d hd
      rcases List.mem_cons.1 hd with rfl | hd
      · exact hs
      · exact i1 d hd
    rcases escapeChar_cases c with ⟨e, he, hs, hu, hsafe⟩ | ⟨he, h1, h2, h3⟩
    · rw [he] at h
      unfold parseChars at h
      simp only [List.cons_append, List.nil_append] at h
      rw [if_neg (by decide), if_neg hu, hs] at h
      exact fin _ rfl hsafe h
    · rw [he] at h
      unfold parseChars at h
      simp only [List.cons_append, List.nil_append] at h
      rw [if_neg h1, if_neg h2] at h
      split at h
      · rename_i hc
        exact fin _ rfl (h3.2 hc) h
      · cases h

/-! ### Members -/

/-- The text continues with the members `ms` and a closing brace. -/
def Walk (ms : List (Str × JVal)) (s r : Str) : Prop := ∃ n, parseMembers n s = some (ms, r)

theorem walk_of_obj {n : Nat} {ms : List (Str × JVal)} {s r : Str} (h : parseValue n ('{' :: s) = some (.obj ms, r)) :
    (ms = [] ∧ skipWs s = '}' :: r) ∨ Walk ms s r := by
  cases n with
  | zero => unfold parseValue at h; cases h
  | succ n =>
    unfold parseValue at h
    dsimp only at h
    rw [if_neg (by decide), if_neg (by decide), if_neg (by decide), if_neg (by decide), if_neg (by decide),
      if_pos rfl] at h
    split at h
    · rename_i e; cases h; exact .inl ⟨rfl, e⟩
    · rw [Option.map_eq_some_iff] at h
      obtain ⟨⟨m, r'⟩, h1, h2⟩ := h
      cases h2
      exact .inr ⟨n, h1⟩

theorem walk_nil {s r : Str} : ¬ Walk [] s r := by
  rintro ⟨n, h⟩
  cases n with
  | zero => unfold parseMembers at h; cases h
  | succ n =>
    unfold parseMembers at h
    split at h
    · split at h
      · rw [Option.map_eq_some_iff] at h
        obtain ⟨_, _, h2⟩ := h
        cases h2
      · cases h
      · cases h
    · cases h

/-- One member: its key, its value, and what follows. -/
theorem walk_step {m : Str × JVal} {ms : List (Str × JVal)} {s r : Str} (h : Walk (m :: ms) ('"' :: s) r) :
    ∃ r1 s1 n r2, parseChars s = some (m.1, r1) ∧ skipWs r1 = ':' :: s1 ∧
      parseValue n (skipWs s1) = some (m.2, r2) ∧
      ((ms = [] ∧ skipWs r2 = '}' :: r) ∨ ∃ r3, skipWs r2 = ',' :: r3 ∧ Walk ms r3 r) := by
  obtain ⟨n, h⟩ := h
  cases n with
  | zero => unfold parseMembers at h; cases h
  | succ n =>
    unfold parseMembers at h
    split at h
    · rename_i m' r' h1
      have key : m' = m ∧ ((ms = [] ∧ r' = '}' :: r) ∨ ∃ r3, r' = ',' :: r3 ∧ Walk ms r3 r) := by
        split at h
        · rename_i r3
          rw [Option.map_eq_some_iff] at h
          obtain ⟨⟨m, r'⟩, h1, h2⟩ := h
          cases h2
          exact ⟨rfl, .inr ⟨_, rfl, n, h1⟩⟩
        · cases h; exact ⟨rfl, .inl ⟨rfl, rfl⟩⟩
        · cases h
      obtain ⟨rfl, key⟩ := key
      cases n with
      | zero => unfold parseMember at h1; cases h1
      | succ n =>
        unfold parseMember at h1
        have hq : skipWs ('"' :: s) = '"' :: s := skipWs_append (w := []) ws_nil (noWs (by decide))
        rw [hq] at h1
        simp only at h1
        split at h1
        · rename_i k r1 e1
          split at h1
          · rename_i s1 e2
            split at h1
            · rename_i v r2 e3
              cases h1
              exact ⟨r1, s1, n, r2, e1, e2, e3, key⟩
            · cases h1
          · cases h1
        · cases h1
    · cases h

/-- A member with a key of plain characters, no whitespace. -/
theorem walk_plain {k : Str} {m : Str × JVal} {ms : List (Str × JVal)} {s r : Str} (hk : ∀ c ∈ k, PlainChar c)
    (h : Walk (m :: ms) ('"' :: (k ++ '"' :: ':' :: s)) r) :
    ∃ n r2, m.1 = k ∧ parseValue n (skipWs s) = some (m.2, r2) ∧
      ((ms = [] ∧ skipWs r2 = '}' :: r) ∨ ∃ r3, skipWs r2 = ',' :: r3 ∧ Walk ms r3 r) := by
  obtain ⟨r1, s1, n, r2, h1, h2, h3, h4⟩ := walk_step h
  rw [parseChars_complete (chars_plain hk)] at h1
  have hc : skipWs (':' :: s) = ':' :: s := skipWs_append (w := []) ws_nil (noWs (by decide))
  cases h1
  rw [hc] at h2
  cases h2
  exact ⟨n, r2, rfl, h3, h4⟩

/-- A member whose key is written by `to_json`. -/
theorem walk_toJson {k : Str} {m : Str × JVal} {ms : List (Str × JVal)} {s r : Str}
    (h : Walk (m :: ms) (toJson k ++ ':' :: s) r) :
    TextRepresentable k ∧ ∃ n r2, m.1 = k ∧ parseValue n (skipWs s) = some (m.2, r2) ∧
      ((ms = [] ∧ skipWs r2 = '}' :: r) ∨ ∃ r3, skipWs r2 = ',' :: r3 ∧ Walk ms r3 r) := by
  have e : toJson k ++ ':' :: s = '"' :: (escapeJson k ++ '"' :: ':' :: s) := by simp [toJson]
  rw [e] at h
  obtain ⟨r1, s1, n, r2, h1, h2, h3, h4⟩ := walk_step h
  obtain ⟨e1, e2, e3⟩ := parseChars_escape h1
  have hc : skipWs (':' :: s) = ':' :: s := skipWs_append (w := []) ws_nil (noWs (by decide))
  subst e3
  rw [hc] at h2
  cases h2
  exact ⟨e1, n, r2, e2, h3, h4⟩

/-! ### Values -/

theorem parse_quote {n : Nat} {s r : Str} {v : JVal} (h : parseValue n ('"' :: s) = some (v, r)) :
    ∃ x, v = .str x ∧ parseChars s = some (x, r) := by
  cases n with
  | zero => unfold parseValue at h; cases h
  | succ n =>
    unfold parseValue at h
    dsimp only at h
    rw [if_neg (by decide), if_neg (by decide), if_neg (by decide), if_pos rfl, Option.map_eq_some_iff] at h
    obtain ⟨⟨x, r'⟩, h1, h2⟩ := h
    cases h2
    exact ⟨x, rfl, h1⟩

theorem skipWs_self {c : Char} {s : Str} (h : wsChar c = false) : skipWs (c :: s) = c :: s :=
  skipWs_append (w := []) ws_nil (noWs h)

/-- A value written by `to_json`. -/
theorem parse_toJson {n : Nat} {x s r : Str} {v : JVal} (h : parseValue n (skipWs (toJson x ++ s)) = some (v, r)) :
    TextRepresentable x ∧ v = .str x ∧ r = s := by
  have e : toJson x ++ s = '"' :: (escapeJson x ++ '"' :: s) := by simp [toJson]
  rw [e, skipWs_self (by decide)] at h
  obtain ⟨y, h1, h2⟩ := parse_quote h
  obtain ⟨h3, h4, h5⟩ := parseChars_escape h2
  exact ⟨h3, by rw [h1, h4], h5⟩

/-- A string value written as it is, that must denote a string starting with it. -/
theorem parse_raw {n : Nat} {x y s r : Str} (hxy : x <+: y)
    (h : parseValue n (skipWs ('"' :: (x ++ '"' :: s))) = some (.str y, r)) :
    (∀ c ∈ x, PlainChar c) ∧ y = x ∧ r = s := by
  rw [skipWs_self (by decide)] at h
  obtain ⟨y, h1, h2⟩ := parse_quote h
  cases h1
  exact parseChars_raw hxy h2

/-- A string value of plain characters. -/
theorem parse_plain {n : Nat} {x s r : Str} {v : JVal} (hx : ∀ c ∈ x, PlainChar c)
    (h : parseValue n (skipWs ('"' :: (x ++ '"' :: s))) = some (v, r)) : v = .str x ∧ r = s := by
  rw [skipWs_self (by decide)] at h
  obtain ⟨y, h1, h2⟩ := parse_quote h
  rw [parseChars_complete (chars_plain hx)] at h2
  cases h2
  exact ⟨h1, rfl⟩

theorem numChar_noWs {c : Char} (h : numChar c = true) : wsChar c = false := by
  by_contra hw
  rw [Bool.not_eq_false, wsChar_iff] at hw
  rcases hw with rfl | rfl | rfl | rfl <;> exact absurd h (by decide)

/-- Text made of the characters of numbers, up to a comma or brace. -/
theorem parse_num {n : Nat} {t s r : Str} {q : Rat} (ht : ∀ c ∈ t, numChar c = true) (hs : Sep s) (hne : t ≠ [])
    (h : parseValue n (skipWs (t ++ s)) = some (.num q, r)) : Number q t ∧ r = s := by
  obtain ⟨c, t', rfl⟩ := List.exists_cons_of_ne_nil hne
  rw [List.cons_append, skipWs_self (numChar_noWs (ht c (by simp)))] at h
  obtain ⟨e1, e2⟩ := span_eq (p := numChar) (s := c :: t') (r := s) ht hs
  cases n with
  | zero => unfold parseValue at h; cases h
  | succ n =>
    unfold parseValue at h
    dsimp only at h
    rw [List.cons_append] at e1 e2
    rw [e1, e2] at h
    split at h
    · split at h <;> cases h
    · split at h
      · split at h <;> cases h
      · split at h
        · split at h <;> cases h
        · split at h
          · rw [Option.map_eq_some_iff] at h; obtain ⟨⟨x, r'⟩, h1, h2⟩ := h; cases h2
          · split at h
            · split at h
              · cases h
              · rw [Option.map_eq_some_iff] at h; obtain ⟨⟨x, r'⟩, h1, h2⟩ := h; cases h2
            · split at h
              · split at h
                · cases h
                · rw [Option.map_eq_some_iff] at h; obtain ⟨⟨x, r'⟩, h1, h2⟩ := h; cases h2
              · rw [Option.map_eq_some_iff] at h
                obtain ⟨x, h1, h2⟩ := h
                cases h2
                exact ⟨parseNumber_iff.1 h1, rfl⟩

end Phosphor
