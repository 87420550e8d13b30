import Verif.Proof.RegistryLive
/-
Property C87: calls of the category registry and trace points finish, with the memory orders of
the source.
-/
namespace Phosphor.RegConc.W
open Phosphor.Weak
variable {cat : Nat → Str} {w w' : St} {t : Nat}

/-- An execution from `w` to `w'` during which thread `t` is in one call, in which it makes `k`
steps; other threads do anything. -/
inductive During (cat : Nat → Str) (t : Nat) : Nat → St → St → Prop
  | refl {w : St} : During cat t 0 w w
  | mine {k : Nat} {w w' w'' : St} : During cat t k w w' → Step cat w' w'' → w'.pc t ≠ .idle → w''.pc t ≠ w'.pc t →
      During cat t (k + 1) w w''
  | theirs {k : Nat} {w w' w'' : St} : During cat t k w w' → Step cat w' w'' → w''.pc t = w'.pc t →
      During cat t k w w''

theorem During.reachable {k : Nat} (h : Reachable cat w) (hd : During cat t k w w') : Reachable cat w' := by
  induction hd with
  | refl => exact h
  | mine _ hs _ _ ih => exact .step (ih h) hs
  | theirs _ hs _ ih => exact .step (ih h) hs

/-- C87: whatever the other threads do and whatever stale values are read, a lookup, an update or a
trace point takes at most 511 steps of its thread (the registry has 250 cells). -/
theorem C87_bounded {k : Nat} (h : Reachable cat w) (hd : During cat t k w w') : k ≤ 511 := by
  have hw : ∀ {w : St}, Reachable cat w → left (w.pc t) ≤ 511 := by
    intro w h
    obtain ⟨g, hr⟩ := rel_reachable h
    have hc : 3 + g.ct ≤ 250 := hr.inv.chigh
    cases hp : w.pc t with
    | reg q tp =>
      have h1 := hr.holder hp
      cases q <;> simp only [left] <;> try omega
      · have h2 := h1.2.2; simp only [sc] at h2; omega
      · have h2 := h1.2.2.2.1; simp only [sc] at h2; omega
      · have h2 := h1.2.2.2.1; simp only [sc] at h2; omega
    | _ => simp only [left]; omega
  have key : k + left (w'.pc t) ≤ left (w.pc t) := by
    induction hd with
    | refl => omega
    | @mine k w w' w'' hd hs hi hne ih =>
      have ih := ih h
      rcases moves (hd.reachable h) hs with h1 | ⟨u, q, h1, h2⟩
      · exact absurd (by rw [h1]) hne
      · by_cases hu : t = u
        · subst hu
          rw [h1, setf_self]
          have := h2.resolve_left hi
          omega
        · exact absurd (by rw [h1, setf_ne _ _ hu]) hne
    | theirs hd hs he ih => rw [he]; exact ih h
  have := hw h
  omega

/-- C87: a thread in a call can always make a step, unless it waits for the mutex and another
thread has it; that one can make a step then. -/
theorem C87_never_stuck (h : Reachable cat w) (hn : ∀ p, '\x00' ∉ cat p) (hp : w.pc t ≠ .idle) :
    ∃ u w', Step cat w w' ∧ w'.pc u ≠ w.pc u ∧ (∀ v, v ≠ u → w'.pc v = w.pc v) ∧
      (u = t ∨ waiting (w.pc t) = true ∧ w.mutex = some u) := by
  have go : ∀ u, w.pc u ≠ .idle → (waiting (w.pc u) = true → w.mutex = none) →
      ∃ w', Step cat w w' ∧ w'.pc u ≠ w.pc u ∧ ∀ v, v ≠ u → w'.pc v = w.pc v := by
    intro u h1 h2
    obtain ⟨w', q, h3, h4, h5⟩ := can h hn h1 h2
    refine ⟨w', h3, ?_, fun v hv => by rw [h4, setf_ne _ _ hv]⟩
    rw [h4, setf_self]
    intro e; rw [e] at h5; omega
  by_cases hw : waiting (w.pc t) = true → w.mutex = none
  · obtain ⟨w', h1, h2, h3⟩ := go t hp hw
    exact ⟨t, w', h1, h2, h3, Or.inl rfl⟩
  · cases hm : w.mutex with
    | none => exact absurd (fun _ => hm) hw
    | some u =>
      have hin := h.owner u hm
      obtain ⟨w', h1, h2, h3⟩ := go u (by intro e; rw [e] at hin; cases hin)
        (by intro e; exfalso; generalize w.pc u = p at *; cases p with
            | reg q tp => cases q <;> simp_all [inside, waiting]
            | _ => cases hin)
      refine ⟨u, w', h1, h2, h3, Or.inr ⟨?_, rfl⟩⟩
      cases hx : waiting (w.pc t) with
      | true => rfl
      | false => rw [hx] at hw; exact absurd (fun e => by cases e) hw

theorem Steps.trans {a b c : St} (h : Steps cat a b) (h' : Steps cat b c) : Steps cat a c := by
  induction h' with
  | refl => exact h
  | step _ hs ih => exact .step ih hs

/-- C87: however many threads have stopped where they are, as long as the owner of the mutex has
not, the call of thread `t` can be finished, by `t` and the owner alone. -/
theorem C87_finishes (h : Reachable cat w) (hn : ∀ p, '\x00' ∉ cat p) (t : Nat) :
    ∃ w', Steps cat w w' ∧ w'.pc t = .idle ∧
      ∀ u, u ≠ t → w.mutex ≠ some u → w'.pc u = w.pc u := by
  -- a thread that can go on alone does so to its end
  have alone : ∀ n (w : St) (t : Nat), Reachable cat w → left (w.pc t) ≤ n → (w.mutex = none ∨ w.mutex = some t) →
      ∃ w', Steps cat w w' ∧ w'.pc t = .idle ∧ (∀ u, u ≠ t → w'.pc u = w.pc u) ∧ w'.mutex = none := by
    intro n
    induction n with
    | zero =>
      intro w t h hl hm
      have hi := left_zero (Nat.le_zero.1 hl)
      refine ⟨w, .refl, hi, fun _ _ => rfl, ?_⟩
      rcases hm with hm | hm
      · exact hm
      · have := h.owner t hm; rw [hi] at this; cases this
    | succ n ih =>
      intro w t h hl hm
      by_cases hi : w.pc t = .idle
      · refine ⟨w, .refl, hi, fun _ _ => rfl, ?_⟩
        rcases hm with hm | hm
        · exact hm
        · have := h.owner t hm; rw [hi] at this; cases this
      · have hw : waiting (w.pc t) = true → w.mutex = none := by
          intro e
          rcases hm with hm | hm
          · exact hm
          · have hin := h.owner t hm
            exfalso; generalize w.pc t = p at *
            cases p with
            | reg q tp => cases q <;> simp_all [inside, waiting]
            | _ => cases hin
        obtain ⟨w1, q, h1, h2, h3⟩ := can h hn hi hw
        have hr1 := Reachable.step h h1
        have hm1 : w1.mutex = none ∨ w1.mutex = some t := by
          cases hx : w1.mutex with
          | none => exact Or.inl rfl
          | some u =>
            right
            by_cases hu : u = t
            · rw [hu]
            · have h4 := hr1.owner u hx
              rw [h2, setf_ne _ _ hu] at h4
              obtain ⟨g, hrel⟩ := rel_reachable h
              have h5 : w.mutex = some u := by
                cases hp : w.pc u with
                | reg q' tp =>
                  have h6 := hrel.holder hp
                  rw [hp] at h4
                  cases q' <;> simp only [inside] at h4 <;> first | cases h4 | skip
                  · exact h6.2.1
                  · exact h6.2.1
                  · exact h6.2.1
                  · exact h6.2.1
                  · exact h6.2.1
                  · exact h6.1
                  · exact h6
                  · exact h6.1
                  · exact h6.1
                  · exact h6.1
                | _ => rw [hp] at h4; cases h4
              rcases hm with hm | hm
              · rw [h5] at hm; cases hm
              · rw [h5] at hm; cases hm; exact absurd rfl hu
        obtain ⟨w2, h4, h5, h6, h7⟩ := ih w1 t hr1 (by rw [h2, setf_self]; omega) hm1
        exact ⟨w2, (Steps.step .refl h1).trans h4, h5, fun u hu => by rw [h6 u hu, h2, setf_ne _ _ hu], h7⟩
  have reach : ∀ {a b : St}, Reachable cat a → Steps cat a b → Reachable cat b := by
    intro a b ha hs
    induction hs with
    | refl => exact ha
    | step _ hs ih => exact .step ih hs
  cases hm : w.mutex with
  | none =>
    obtain ⟨w', h1, h2, h3, _⟩ := alone _ w t h (Nat.le_refl _) (Or.inl hm)
    exact ⟨w', h1, h2, fun u hu _ => h3 u hu⟩
  | some o =>
    by_cases ho : o = t
    · subst ho
      obtain ⟨w', h1, h2, h3, _⟩ := alone _ w o h (Nat.le_refl _) (Or.inr hm)
      exact ⟨w', h1, h2, fun u hu _ => h3 u hu⟩
    · obtain ⟨w1, h1, h2, h3, h4⟩ := alone _ w o h (Nat.le_refl _) (Or.inr hm)
      obtain ⟨w2, h5, h6, h7, _⟩ := alone _ w1 t (reach h h1) (Nat.le_refl _) (Or.inl h4)
      refine ⟨w2, h1.trans h5, h6, fun u hu hne => ?_⟩
      rw [h7 u hu]
      exact h3 u (fun e => hne (by rw [e]))

/-- A trace point of a new category, as far as it has to wait: thread 1 is in a call and waits while
thread 0 has the mutex. -/
example : ∃ w, Reachable (fun _ => ['a']) w ∧ waiting (w.pc 1) = true ∧ w.mutex = some 0 := by
  have h0 : Reachable (fun _ => ['a']) St.init := .init
  have h1 := Reachable.step h0 (.callUpd (t := 0) (u := .disable) rfl)
  have h2 := Reachable.step h1 (.callUpd (t := 1) (u := .disable) rfl)
  have h3 := Reachable.step h2 (.uLock (t := 0) (u := .disable) rfl rfl)
  exact ⟨_, h3, rfl, rfl⟩

end Phosphor.RegConc.W
