import Verif.Model.InlineZString
namespace Phosphor

@[simp] theorem cstr_nil : cstr [] = [] := rfl
theorem cstr_cons (c : Char) (s : Str) :
    cstr (c :: s) = if c = '\x00' then [] else c :: cstr s := by
  by_cases h : c = '\x00' <;> simp [cstr, h]

theorem strnlenS_eq (s : Str) (n : Nat) (h : n ≤ s.length) :
    strnlenS s n = .ok (cstr (s.take n)).length := by
  induction n generalizing s with
  | zero => simp [strnlenS, cstr]
  | succ n ih =>
    cases s with
    | nil => simp at h
    | cons c s =>
      unfold strnlenS
      have := ih s (by simpa using h)
      by_cases hc : c = '\x00'
      · simp [hc, cstr]
      · simp only [hc, if_false, this]
        simp [cstr, hc]

theorem cstr_prefix (s : Str) : cstr s <+: s := List.takeWhile_prefix _

theorem take_cstr_length (s : Str) : s.take (cstr s).length = cstr s := by
  have h := cstr_prefix s
  exact (List.prefix_iff_eq_take.1 h).symm

theorem izToString_eq {m : Nat} {st : Str} (h : st.length = m) :
    izToString m st = .ok (cstr st) := by
  unfold izToString
  rw [strnlenS_eq st m (by omega), List.take_of_length_le (by omega)]
  simp [take_cstr_length]

theorem cstr_append_replicate (s : Str) (n : Nat) :
    cstr (s ++ List.replicate n '\x00') = cstr s := by
  induction s with
  | nil => cases n <;> simp [cstr_cons, List.replicate_succ]
  | cons c s ih => simp [cstr_cons, ih]

theorem cstr_append_nul (s t : Str) : cstr (s ++ '\x00' :: t) = cstr s := by
  induction s with
  | nil => simp [cstr_cons]
  | cons c s ih => simp [cstr_cons, ih]

theorem cstr_of_free {s : Str} (h : '\x00' ∉ s) : cstr s = s := by
  induction s with
  | nil => rfl
  | cons c s ih =>
    simp only [List.mem_cons, not_or] at h
    rw [cstr_cons, if_neg (fun e => h.1 e.symm), ih h.2]

theorem cstr_free (s : Str) : '\x00' ∉ cstr s := by
  induction s with
  | nil => simp
  | cons c s ih =>
    rw [cstr_cons]
    split
    · simp
    · next h => simp [ih]; exact fun e => h e.symm

theorem izMake_ok {m : Nat} {src : Str} {len : Nat} (h : min len m ≤ src.length) :
    izMake m src len
      = .ok (src.take (min len m) ++ List.replicate (m - min len m) '\x00') := by
  unfold izMake
  have : (if len < m then len else m) = min len m := by
    rw [Nat.min_def]; split <;> split <;> omega
  simp [this, h]

end Phosphor
