import Verif.Model.StringUtils
namespace Phosphor

theorem findFrom_some {pat s : Str} {i n : Nat} (h : findFrom pat i s = some n) :
    i ≤ n ∧ n ≤ i + s.length ∧ pat <+: s.drop (n - i) ∧
      ∀ m, i ≤ m → m < n → ¬ pat <+: s.drop (m - i) := by
  induction s generalizing i with
  | nil =>
    unfold findFrom at h
    split at h
    · next hp => cases h; simp [hp]
    · cases h
  | cons c s ih =>
    unfold findFrom at h
    split at h
    · next hp => cases h; simp [List.isPrefixOf_iff_prefix.1 hp]; omega
    · next hp =>
      obtain ⟨h1, h2, h3, h4⟩ := ih h
      refine ⟨by omega, by simp; omega, ?_, ?_⟩
      · rw [show n - i = (n - (i + 1)) + 1 by omega]; simpa using h3
      · intro m hm hmn
        by_cases hmi : m = i
        · subst hmi
          simpa [List.isPrefixOf_iff_prefix] using hp
        · have := h4 m (by omega) hmn
          rw [show m - i = (m - (i + 1)) + 1 by omega]; simpa using this

theorem findFrom_none {pat s : Str} {i : Nat} (h : findFrom pat i s = none) :
    ∀ m, m ≤ s.length → ¬ pat <+: s.drop m := by
  induction s generalizing i with
  | nil =>
    unfold findFrom at h
    split at h
    · cases h
    · next hp => intro m _; simp [hp]
  | cons c s ih =>
    unfold findFrom at h
    split at h
    · cases h
    · next hp =>
      intro m hm
      cases m with
      | zero => simpa [List.isPrefixOf_iff_prefix] using hp
      | succ m => simpa using ih h m (by simpa using hm)

end Phosphor
