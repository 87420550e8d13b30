import Verif.Model.TraceConfig
import Verif.Spec.Config
import Verif.Proof.Split
import Verif.Proof.InlineZString
import Verif.Proof.Decimal
namespace Phosphor
open Json

theorem splitString_kv_iff (seg k v : Str) : splitString seg ':' = [k, v] ↔ IsKV seg k v := by
  constructor
  · intro h
    by_cases hs : seg = []
    · subst hs; simp [splitString] at h
    rw [splitString_eq _ _ hs] at h
    have hf := pieces_free ':' seg
    have hI := pieces_intercalate ':' seg
    unfold dropTrailing at h
    split at h
    · next hl =>
      have hp : pieces ':' seg = [k, v, []] := by
        rcases List.eq_nil_or_concat (pieces ':' seg) with hp | ⟨l, p, hp⟩
        · exact absurd hp (pieces_ne_nil _ _)
        · rw [hp] at h hl ⊢
          simp at h hl ⊢
          rw [h, hl]; rfl
      rw [hp] at hf hI
      refine ⟨hf k (by simp), hf v (by simp), Or.inr ?_⟩
      rw [← hI]; simp [List.intercalate]
    · next hl =>
      rw [h] at hf hI hl
      refine ⟨hf k (by simp), hf v (by simp), Or.inl ⟨?_, ?_⟩⟩
      · rintro rfl; exact hl rfl
      · rw [← hI]; simp [List.intercalate]
  · rintro ⟨hk, hv, ⟨hne, rfl⟩ | rfl⟩
    · rw [splitString_eq _ _ (by simp), pieces_append hk, pieces_of_free hv]
      simp [dropTrailing, hne]
    · rw [splitString_eq _ _ (by simp), pieces_append hk, pieces_append hv]
      simp [dropTrailing, pieces]

theorem space_iff (c : Char) : isSpaceC c = true ↔ Space c := by
  simp [isSpaceC, Space, or_assoc]

theorem dropWhile_append_of {p : Char → Bool} {a b : Str} (ha : ∀ c ∈ a, p c = true)
    (hb : ∀ c, b.head? = some c → p c = false) : (a ++ b).dropWhile p = b := by
  induction a with
  | nil =>
    cases b with
    | nil => rfl
    | cons c b => simp [hb c rfl]
  | cons c a ih =>
    simp [ha c (by simp)]
    exact ih (fun x hx => ha x (by simp [hx]))

theorem mem_takeWhile_imp {p : Char → Bool} {l : Str} {c : Char} (h : c ∈ l.takeWhile p) :
    p c = true := by
  induction l with
  | nil => simp at h
  | cons x l ih =>
    rw [List.takeWhile_cons] at h
    split at h
    · next hx =>
      rcases List.mem_cons.1 h with rfl | h
      · exact hx
      · exact ih h
    · simp at h

theorem takeWhile_append_of {p : Char → Bool} {a b : Str} (ha : ∀ c ∈ a, p c = true)
    (hb : ∀ c, b.head? = some c → p c = false) : (a ++ b).takeWhile p = a := by
  induction a with
  | nil =>
    cases b with
    | nil => rfl
    | cons c b => simp [hb c rfl]
  | cons c a ih =>
    simp [ha c (by simp)]
    exact ih (fun x hx => ha x (by simp [hx]))

theorem cstr_append_of_free {a : Str} (b : Str) (h : '\x00' ∉ a) : cstr (a ++ b) = a ++ cstr b := by
  induction a with
  | nil => rfl
  | cons c a ih =>
    simp only [List.mem_cons, not_or] at h
    rw [List.cons_append, cstr_cons, if_neg (fun e => h.1 e.symm), ih h.2]; rfl

theorem head_cstr (s : Str) (c : Char) (h : (cstr s).head? = some c) : s.head? = some c := by
  cases s with
  | nil => simp at h
  | cons x s =>
    rw [cstr_cons] at h
    split at h
    · simp at h
    · simpa using h

/-- `stoi` on a string of the expected shape. -/
theorem stoi_shape {ws sg ds rest : Str} (hws : ∀ c ∈ ws, Space c)
    (hsg : sg = [] ∨ sg = ['+'] ∨ sg = ['-']) (hne : ds ≠ []) (hds : ∀ c ∈ ds, Digit c)
    (hrest : ∀ c, rest.head? = some c → ¬ Digit c) :
    stoi (ws ++ sg ++ ds ++ rest) =
      (let v : Int := if sg = ['-'] then -(digitsVal ds : Int) else digitsVal ds
       if intMin ≤ v ∧ v ≤ intMax then .ok v else .throw .outOfRange) := by
  have hd : ∀ c ∈ ds, c.isDigit = true := fun c hc => (digit_iff c).1 (hds c hc)
  have hnul : '\x00' ∉ ws ++ sg ++ ds := by
    simp only [List.mem_append, not_or]
    refine ⟨⟨?_, ?_⟩, ?_⟩
    · intro h; have := hws _ h; revert this; unfold Space; decide
    · rcases hsg with rfl | rfl | rfl <;> decide
    · intro h; have := hd _ h; revert this; decide
  have hsp : ∀ c, (sg ++ ds ++ cstr rest).head? = some c → isSpaceC c = false := by
    intro c hc
    rcases hsg with rfl | rfl | rfl
    · cases ds with
      | nil => exact absurd rfl hne
      | cons x ds =>
        simp at hc; subst hc
        have := hd x (by simp)
        rw [Bool.eq_false_iff]
        intro h
        rcases (space_iff x).1 h with rfl | rfl | rfl | rfl | rfl | rfl <;> revert this <;> decide
    · simp at hc; subst hc; decide
    · simp at hc; subst hc; decide
  have hdrop : (cstr (ws ++ sg ++ ds ++ rest)).dropWhile isSpaceC = sg ++ ds ++ cstr rest := by
    rw [cstr_append_of_free _ hnul, List.append_assoc, List.append_assoc, List.append_assoc]
    rw [List.append_assoc] at hsp
    exact dropWhile_append_of (fun c hc => (space_iff c).2 (hws c hc)) hsp
  have hsign : takeSign (sg ++ ds ++ cstr rest) = (decide (sg = ['-']), ds ++ cstr rest) := by
    rcases hsg with rfl | rfl | rfl
    · cases ds with
      | nil => exact absurd rfl hne
      | cons x ds =>
        have := hd x (by simp)
        have h1 : x ≠ '-' := by rintro rfl; revert this; decide
        have h2 : x ≠ '+' := by rintro rfl; revert this; decide
        simp only [List.nil_append, List.cons_append]
        unfold takeSign
        split
        · next h => simp at h; exact absurd h.1 h1
        · next h => simp at h; exact absurd h.1 h2
        · rfl
    · rfl
    · rfl
  have htake : (ds ++ cstr rest).takeWhile Char.isDigit = ds := by
    apply takeWhile_append_of hd
    intro c hc
    rw [Bool.eq_false_iff]
    exact fun h => hrest c (head_cstr _ _ hc) ((digit_iff c).2 h)
  unfold stoi
  rw [hdrop, hsign]
  simp only [htake, hne, if_false, decide_eq_true_eq]
  rw [← digitsVal_eq]

/-- Every accepted size text is of the expected shape. -/
theorem stoi_ok_shape {s : Str} {v : Int} (h : stoi s = .ok v) :
    ∃ ws sg ds rest, s = ws ++ sg ++ ds ++ rest ∧ (∀ c ∈ ws, Space c) ∧
      (sg = [] ∨ sg = ['+'] ∨ sg = ['-']) ∧ ds ≠ [] ∧ (∀ c ∈ ds, Digit c) ∧
      (∀ c, rest.head? = some c → ¬ Digit c) := by
  unfold stoi at h
  have hsplit := List.takeWhile_append_dropWhile (p := isSpaceC) (l := cstr s)
  generalize hb : (cstr s).dropWhile isSpaceC = b at h hsplit
  generalize ha : (cstr s).takeWhile isSpaceC = a at hsplit
  have hws : ∀ c ∈ a, Space c := by
    intro c hc
    rw [← space_iff]
    rw [← ha] at hc
    exact mem_takeWhile_imp hc
  obtain ⟨junk, hjunk, hjh⟩ : ∃ junk, s = cstr s ++ junk ∧
      ∀ c, junk.head? = some c → c = '\x00' := by
    refine ⟨s.dropWhile (· ≠ '\x00'), ?_, ?_⟩
    · exact (List.takeWhile_append_dropWhile).symm
    · intro c hc
      have := List.head?_dropWhile_not (fun x : Char => decide (x ≠ '\x00')) s
      rw [hc] at this
      simpa using this
  have hsg : ∃ sg body, b = sg ++ body ∧ (takeSign b).2 = body ∧
      (sg = [] ∨ sg = ['+'] ∨ sg = ['-']) := by
    unfold takeSign
    split
    · exact ⟨['-'], _, rfl, rfl, by simp⟩
    · exact ⟨['+'], _, rfl, rfl, by simp⟩
    · exact ⟨[], _, rfl, rfl, by simp⟩
  obtain ⟨sg, body, hbb, hbody, hsg⟩ := hsg
  cases hts : takeSign b with
  | mk neg body' =>
    rw [hts] at h hbody
    simp only at hbody
    subst hbody
    simp only at h
    split at h
    · cases h
    · next hne =>
      refine ⟨a, sg, body'.takeWhile Char.isDigit, body'.dropWhile Char.isDigit ++ junk, ?_, hws,
        hsg, hne, ?_, ?_⟩
      · rw [hjunk, ← hsplit, hbb]
        have := List.takeWhile_append_dropWhile (p := Char.isDigit) (l := body')
        simp only [List.append_assoc]
        rw [← List.append_assoc (List.takeWhile Char.isDigit body'), this]
      · intro c hc
        rw [digit_iff]
        exact mem_takeWhile_imp hc
      · intro c hc hd
        rw [digit_iff] at hd
        cases hdr : body'.dropWhile Char.isDigit with
        | nil =>
          rw [hdr] at hc
          have := hjh c (by simpa using hc)
          subst this; revert hd; decide
        | cons x xs =>
          rw [hdr] at hc
          simp at hc; subst hc
          have := List.head?_dropWhile_not Char.isDigit body'
          rw [hdr] at this
          simp at this
          rw [this] at hd; cases hd

theorem parseSize_iff (s : Str) (n : Nat) : parseSize s = .ok n ↔ SizeText s n := by
  constructor
  · intro h
    unfold parseSize at h
    cases hst : stoi s with
    | throw e => rw [hst] at h; cases e <;> simp at h
    | ub => rw [hst] at h; simp at h
    | ok v =>
      rw [hst] at h
      simp only at h
      split at h
      · cases h
      next hv =>
      cases h
      obtain ⟨ws, sg, ds, rest, rfl, h1, h2, h3, h4, h5⟩ := stoi_ok_shape hst
      rw [stoi_shape h1 h2 h3 h4 h5] at hst
      generalize hval : (if sg = ['-'] then -(digitsVal ds : Int) else digitsVal ds) = w at hst
      by_cases hr : intMin ≤ w ∧ w ≤ intMax
      · simp only [if_pos hr] at hst
        cases hst
        rw [← hval] at hv hr ⊢
        refine SizeText.mk h1 ?_ h3 h4 h5 ?_ ?_
        · rcases h2 with h | h | h
          · exact Or.inl h
          · exact Or.inr (Or.inl h)
          · refine Or.inr (Or.inr ⟨h, ?_⟩)
            rw [if_pos h] at hv ⊢
            omega
        · by_cases h : sg = ['-']
          · rw [if_pos h] at hv ⊢; omega
          · rw [if_neg h]; omega
        · unfold intMax at hr; omega
      · simp only [if_neg hr] at hst
        cases hst
  · rintro ⟨h1, h2, h3, h4, h5, h6, h7⟩
    rename_i ws sg ds rest
    have h2' : sg = [] ∨ sg = ['+'] ∨ sg = ['-'] := by
      rcases h2 with h | h | h
      · exact Or.inl h
      · exact Or.inr (Or.inl h)
      · exact Or.inr (Or.inr h.1)
    unfold parseSize
    rw [stoi_shape h1 h2' h3 h4 h5]
    have hval : (if sg = ['-'] then -(digitsVal ds : Int) else digitsVal ds) = (n : Int) := by
      rcases h2 with rfl | rfl | ⟨rfl, rfl⟩
      · simp [h6]
      · simp [h6]
      · simp [← h6]
    simp only [hval]
    rw [if_pos (by unfold intMin intMax; omega)]
    simp only
    rw [if_neg (by omega)]
    simp

/-- Anything else is refused with `invalid_argument`. -/
theorem parseSize_throw (s : Str) (h : ¬ ∃ n, SizeText s n) :
    parseSize s = .throw .invalidArgument := by
  have hno : ∀ n, parseSize s ≠ .ok n := fun n hn => h ⟨n, (parseSize_iff s n).1 hn⟩
  have hst : (∃ v, stoi s = .ok v) ∨ stoi s = .throw .invalidArgument ∨
      stoi s = .throw .outOfRange := by
    unfold stoi
    simp only
    split
    · exact Or.inr (Or.inl rfl)
    · generalize (if (takeSign (List.dropWhile isSpaceC (cstr s))).fst = true then _ else _ : Int) = v
      by_cases hv : intMin ≤ v ∧ v ≤ intMax
      · exact Or.inl ⟨v, by rw [if_pos hv]⟩
      · exact Or.inr (Or.inr (by rw [if_neg hv]))
  unfold parseSize at hno ⊢
  rcases hst with ⟨v, hv⟩ | hv | hv <;> rw [hv] at hno ⊢
  simp only at hno ⊢
  split at hno
  · next h => rw [if_pos h]
  · exact absurd rfl (hno _)

end Phosphor
