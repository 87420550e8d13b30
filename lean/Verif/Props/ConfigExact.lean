import Verif.Props.Config
/-
C12 for every configuration: names with `,` `:` `;` included.
-/
namespace Phosphor

theorem mem_joinString {l : List Str} {d : Char} {p : Str} (hp : p ∈ l) {c : Char} (hc : c ∈ p) :
    c ∈ joinString l d := by
  rw [joinString_eq]
  induction l with
  | nil => cases hp
  | cons q l ih =>
    cases l with
    | nil =>
      rw [List.mem_singleton] at hp
      subst hp
      simpa [List.intercalate] using hc
    | cons r l =>
      rw [show List.intercalate [d] (q :: r :: l) = q ++ [d] ++ List.intercalate [d] (r :: l) by
        simp [List.intercalate]]
      rcases List.mem_cons.1 hp with rfl | hp
      · simp [hc]
      · simp [ih hp]

theorem split_chars {s : Str} {d : Char} {p : Str} (hp : p ∈ splitString s d) {c : Char} (hc : c ∈ p) :
    c ∈ s := by
  have h := mem_joinString (d := d) hp hc
  rw [C02_join_split] at h
  split at h
  · exact List.dropLast_subset _ h
  · exact h

theorem applyArg_plain {c c' : TraceConfig} {a : Str} (ha : ';' ∉ a) (h : c.applyArg a = .ok c')
    (h1 : PlainNames c.enabled) (h2 : PlainNames c.disabled) :
    PlainNames c'.enabled ∧ PlainNames c'.disabled := by
  unfold TraceConfig.applyArg at h
  split at h
  · rename_i key value hkv
    have hv : ∀ p ∈ splitString value ',', ',' ∉ p ∧ ':' ∉ p ∧ ';' ∉ p := by
      intro p hp
      have hm : value ∈ splitString a ':' := by rw [hkv]; simp
      refine ⟨C02_split_pieces_free _ _ p hp, fun hc => ?_, fun hc => ?_⟩
      · exact C02_split_pieces_free _ _ value hm (split_chars hp hc)
      · exact ha (split_chars hm (split_chars hp hc))
    unfold TraceConfig.applyKV at h
    split at h
    · split at h
      · cases h; exact ⟨h1, h2⟩
      · split at h
        · cases h; exact ⟨h1, h2⟩
        · cases h
    split at h
    · cases hs : parseSize value with
      | ok n => rw [hs] at h; cases h; exact ⟨h1, h2⟩
      | throw e => rw [hs] at h; cases h
      | ub => rw [hs] at h; cases h
    split at h
    · cases h; exact ⟨h1, h2⟩
    split at h
    · cases h; exact ⟨hv, h2⟩
    split at h
    · cases h; exact ⟨h1, hv⟩
    · cases h; exact ⟨h1, h2⟩
  · cases h

theorem applyArgs_plain {c c' : TraceConfig} {as : List Str} (ha : ∀ a ∈ as, ';' ∉ a)
    (h : c.applyArgs as = (c', .ok ())) (h1 : PlainNames c.enabled) (h2 : PlainNames c.disabled) :
    PlainNames c'.enabled ∧ PlainNames c'.disabled := by
  induction as generalizing c with
  | nil => cases h; exact ⟨h1, h2⟩
  | cons a as ih =>
    rw [TraceConfig.applyArgs] at h
    split at h
    · rename_i c1 hc1
      obtain ⟨h1, h2⟩ := applyArg_plain (ha a (List.mem_cons_self ..)) hc1 h1 h2
      exact ih (fun b hb => ha b (List.mem_cons_of_mem _ hb)) h h1 h2
    · cases h
    · cases h

/-- Every configuration read from a string has category names without `,` `:` `;`. -/
theorem fromString_plain {s : Str} {c : TraceConfig} (h : TraceConfig.fromString s = .ok c) :
    PlainNames c.enabled ∧ PlainNames c.disabled := by
  unfold TraceConfig.fromString at h
  split at h
  · rename_i c' u hu
    cases h
    exact applyArgs_plain (C02_split_pieces_free s ';') hu (by unfold PlainNames; decide)
      (by unfold PlainNames; decide)
  · cases h
  · cases h

/-- C12, exact form for every configuration. The round trip succeeds iff the mode is fixed or ring,
the size fits an `int`, and both category lists are non-empty, do not end with an empty name and
have only names without `,` `:` `;`. Missing for the full claim: the other configurations, for which
the round trip fails (`C12_refuted`). -/
theorem C12_exact_partial (c : TraceConfig) :
    C12_round_trip c ↔
      (c.mode = .fixed ∨ c.mode = .ring) ∧ c.size ≤ 2147483647 ∧
        Recoverable c.enabled ∧ Recoverable c.disabled ∧
        ∀ p, p ∈ c.enabled ∨ p ∈ c.disabled → ',' ∉ p ∧ ':' ∉ p ∧ ';' ∉ p := by
  constructor
  · intro h
    obtain ⟨s, c', hs, hc', h1, h2, h3, h4⟩ := h
    obtain ⟨hE, hD⟩ := fromString_plain hc'
    rw [h3] at hE; rw [h4] at hD
    obtain ⟨a, b, d, e⟩ := (C12_round_trip_partial c hE hD).1 ⟨s, c', hs, hc', h1, h2, h3, h4⟩
    exact ⟨a, b, d, e, fun p hp => hp.elim (hE p) (hD p)⟩
  · rintro ⟨a, b, d, e, f⟩
    exact (C12_round_trip_partial c (fun p hp => f p (Or.inl hp)) (fun p hp => f p (Or.inr hp))).2
      ⟨a, b, d, e⟩

/-- A name with a separator breaks the round trip even when the text still parses. -/
example : ¬ C12_round_trip { TraceConfig.default with
    enabled := ["a;buffer-mode:ring".toList], disabled := ["b".toList] } := by
  rw [C12_exact_partial]
  rintro ⟨-, -, -, -, h⟩
  exact absurd (h _ (Or.inl (List.mem_cons_self ..))) (by decide)

end Phosphor
