import Verif.Model.StringUtils
import Verif.Spec.Json
namespace Phosphor
open Json

theorem escapeJson_eq (s : Str) : escapeJson s = s.flatMap escapeChar := by
  have h : ∀ (s acc : Str),
      s.foldl (fun output c => output ++ escapeChar c) acc = acc ++ s.flatMap escapeChar := by
    intro s
    induction s with
    | nil => simp
    | cons c s ih => intro acc; simp [ih]
  exact (h s []).trans (List.nil_append _)

@[simp] theorem escapeJson_nil : escapeJson [] = [] := rfl
@[simp] theorem escapeJson_cons (c : Char) (s : Str) :
    escapeJson (c :: s) = escapeChar c ++ escapeJson s := by simp [escapeJson_eq]

/-- Bytes that `to_json` represents legally: everything except the control characters
without a short escape. -/
def JsonSafe (c : Char) : Prop :=
  0x20 ≤ c.toNat ∨ c = '\x08' ∨ c = '\x0c' ∨ c = '\n' ∨ c = '\r' ∨ c = '\t'

instance (c : Char) : Decidable (JsonSafe c) := inferInstanceAs (Decidable (_ ∨ _))

theorem escapeChar_cases (c : Char) :
    (∃ e, escapeChar c = ['\\', e] ∧ shortEscape e = some c ∧ e ≠ 'u' ∧ JsonSafe c) ∨
    (escapeChar c = [c] ∧ c ≠ '"' ∧ c ≠ '\\' ∧ (JsonSafe c ↔ 0x20 ≤ c.toNat)) := by
  by_cases h1 : c = '"'
  · subst h1; exact Or.inl ⟨'"', by decide⟩
  by_cases h2 : c = '/'
  · subst h2; exact Or.inl ⟨'/', by decide⟩
  by_cases h3 : c = '\x08'
  · subst h3; exact Or.inl ⟨'b', by decide⟩
  by_cases h4 : c = '\x0c'
  · subst h4; exact Or.inl ⟨'f', by decide⟩
  by_cases h5 : c = '\n'
  · subst h5; exact Or.inl ⟨'n', by decide⟩
  by_cases h6 : c = '\r'
  · subst h6; exact Or.inl ⟨'r', by decide⟩
  by_cases h7 : c = '\t'
  · subst h7; exact Or.inl ⟨'t', by decide⟩
  by_cases h8 : c = '\\'
  · subst h8; exact Or.inl ⟨'\\', by decide⟩
  refine Or.inr ⟨by simp [escapeChar, h1, h2, h3, h4, h5, h6, h7, h8], h1, h8, ?_⟩
  simp [JsonSafe, h3, h4, h5, h6, h7]

theorem chars_escapeJson {s : Str} (h : ∀ c ∈ s, JsonSafe c) : Chars s (escapeJson s) := by
  induction s with
  | nil => exact Chars.nil
  | cons c s ih =>
    have ih := ih (fun x hx => h x (List.mem_cons_of_mem _ hx))
    have hc := h c (List.mem_cons_self ..)
    rw [escapeJson_cons]
    rcases escapeChar_cases c with ⟨e, he, hs, _, _⟩ | ⟨he, h1, h2, h3⟩
    · rw [he]; exact Chars.short hs ih
    · rw [he]; exact Chars.plain (h3.1 hc) h1 h2 ih

theorem chars_escapeJson_inv {s v : Str} (h : Chars v (escapeJson s)) :
    v = s ∧ ∀ c ∈ s, JsonSafe c := by
  induction s generalizing v with
  | nil => cases h; simp
  | cons c s ih =>
    rw [escapeJson_cons] at h
    generalize escapeJson s = r at h ih
    rcases escapeChar_cases c with ⟨e, he, hs, hu, hsafe⟩ | ⟨he, h1, h2, h3⟩
    · rw [he] at h
      simp only [List.cons_append, List.nil_append] at h
      cases h with
      | plain _ _ h' => exact absurd rfl h'
      | short hs' h' =>
        rw [hs] at hs'
        cases hs'
        obtain ⟨rfl, hall⟩ := ih h'
        refine ⟨rfl, ?_⟩
        simpa using ⟨hsafe, hall⟩
      | unicode => exact absurd rfl hu
    · rw [he] at h
      simp only [List.cons_append, List.nil_append] at h
      cases h with
      | plain h' _ _ h'' =>
        obtain ⟨rfl, hall⟩ := ih h''
        exact ⟨rfl, by simpa using ⟨h3.2 h', hall⟩⟩
      | short => exact absurd rfl h2
      | unicode => exact absurd rfl h2

theorem isString_toJson_iff {s v : Str} :
    IsString v (toJson s) ↔ v = s ∧ ∀ c ∈ s, JsonSafe c := by
  constructor
  · rintro ⟨t, ht, hc⟩
    simp only [toJson, List.cons_append, List.nil_append, List.cons.injEq, true_and,
      List.append_cancel_right_eq] at ht
    subst ht
    exact chars_escapeJson_inv hc
  · rintro ⟨rfl, h⟩
    exact ⟨escapeJson v, by simp [toJson], chars_escapeJson h⟩

theorem isString_toJson {s : Str} (h : ∀ c ∈ s, JsonSafe c) : IsString s (toJson s) :=
  isString_toJson_iff.2 ⟨rfl, h⟩

theorem escapeJson_injective {s t : Str} (h : escapeJson s = escapeJson t) : s = t := by
  induction s generalizing t with
  | nil =>
    cases t with
    | nil => rfl
    | cons c t =>
      rw [escapeJson_cons] at h
      rcases escapeChar_cases c with ⟨e, he, _⟩ | ⟨he, _⟩ <;> rw [he] at h <;> simp at h
  | cons c s ih =>
    cases t with
    | nil =>
      rw [escapeJson_cons] at h
      rcases escapeChar_cases c with ⟨e, he, _⟩ | ⟨he, _⟩ <;> rw [he] at h <;> simp at h
    | cons d t =>
      rw [escapeJson_cons, escapeJson_cons] at h
      rcases escapeChar_cases c with ⟨e, he, hs, _⟩ | ⟨he, _, h2, _⟩ <;>
        rcases escapeChar_cases d with ⟨e', he', hs', _⟩ | ⟨he', _, h2', _⟩ <;>
        rw [he, he'] at h <;>
        simp only [List.cons_append, List.nil_append, List.cons.injEq, true_and] at h
      · obtain ⟨rfl, h⟩ := h
        rw [hs] at hs'; cases hs'
        rw [ih h]
      · exact absurd h.1.symm h2'
      · exact absurd h.1 h2
      · rw [h.1, ih h.2]

end Phosphor
