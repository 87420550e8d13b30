import Verif.Model.TracePoint
import Verif.Proof.RegHist
import Verif.Props.Registry
/-
Property C51: trace points obey the current category configuration.
-/
namespace Phosphor

/-! ### Executions one after another -/

/-- The registry calls of a program, other than those made by trace points. -/
def configCalls (ops : List TpOp) : List RegOp :=
  ops.filterMap fun o => match o with | .reg op => some op | .exec _ => none

/-- The configuration in force after `ops`. -/
def confAfter (ops : List TpOp) : Option (List Str × List Str) := inForce (configCalls ops)

/-- The group is in the registry. -/
def Registered (r : Registry) (g : Str) : Prop := ∃ j, j < r.count ∧ r.groups[j]? = some (cstr g)

structure TpInv (cat : Nat → Str) (s : TpSt) (conf : Option (List Str × List Str)) : Prop where
  reg : RegInv s.reg
  impl : Implements s.reg conf
  cache : ∀ p i, s.cache p = some i →
    (i < s.reg.count ∧ s.reg.groups[i]? = some (cstr (cat p))) ∨
    (i = 1 ∧ s.reg.count = 250 ∧ ¬ Registered s.reg (cat p))
  lookups : ∀ p, s.lookups p = if s.cache p = none then 0 else 1

theorem tpInv_init (cat) : TpInv cat TpSt.init none where
  reg := regInv_init
  impl := implements_init
  cache := by intro p i h; cases h
  lookups := fun _ => rfl

/-- The registry grows only at its end. -/
structure Grows (r r' : Registry) : Prop where
  count : r.count ≤ r'.count
  same : ∀ i, i < r.count → r'.groups[i]? = r.groups[i]?

theorem cache_grows {r r' : Registry} (h' : RegInv r') (g : Grows r r') {i : Nat} {n : Str}
    (h : (i < r.count ∧ r.groups[i]? = some (cstr n)) ∨
      (i = 1 ∧ r.count = 250 ∧ ¬ Registered r n)) :
    (i < r'.count ∧ r'.groups[i]? = some (cstr n)) ∨
      (i = 1 ∧ r'.count = 250 ∧ ¬ Registered r' n) := by
  have := g.count
  have := h'.chigh
  rcases h with ⟨h1, h2⟩ | ⟨h1, h2, h3⟩
  · exact .inl ⟨by omega, by rw [g.same i h1]; exact h2⟩
  · refine .inr ⟨h1, by omega, ?_⟩
    rintro ⟨j, hj, hg⟩
    exact h3 ⟨j, by omega, by rw [← g.same j (by omega)]; exact hg⟩

/-- One execution of a trace point. -/
theorem exec_spec {cat : Nat → Str} {s : TpSt} {conf} (h : TpInv cat s conf) (p : Nat) :
    ∃ s', s.exec cat p = .ok s' ∧ TpInv cat s' conf ∧ s'.lookups p = 1 ∧
      (s'.logged = s.logged ++ [p] ∨ s'.logged = s.logged) ∧
      (Registered s'.reg (cat p) →
        (s'.logged = s.logged ++ [p] ↔ EnabledIn conf (cstr (cat p)))) ∧
      (¬ Registered s'.reg (cat p) → s'.reg.count = 250 ∧
        (s'.logged = s.logged ++ [p] ↔ EnabledIn conf "category limit reached".toList)) := by
  -- with the pointer known, the test reads the right cell
  have test : ∀ (u : TpSt) (i : Nat), TpInv cat u conf → u.cache p = some i →
      u.logged = s.logged →
      ∃ s', (do let status ← u.reg.cell i
                pure (if status then { u with logged := u.logged ++ [p] } else u) : Res TpSt)
          = .ok s' ∧ TpInv cat s' conf ∧ s'.lookups p = 1 ∧
        (s'.logged = s.logged ++ [p] ∨ s'.logged = s.logged) ∧
        (Registered s'.reg (cat p) →
          (s'.logged = s.logged ++ [p] ↔ EnabledIn conf (cstr (cat p)))) ∧
        (¬ Registered s'.reg (cat p) → s'.reg.count = 250 ∧
          (s'.logged = s.logged ++ [p] ↔ EnabledIn conf "category limit reached".toList)) := by
    intro u i hu hc hl
    have main : ∀ g, i < u.reg.count → u.reg.groups[i]? = some g →
        ∃ b s', u.reg.cell i = .ok b ∧ (b = true ↔ EnabledIn conf g) ∧
          s' = (if b = true then { u with logged := u.logged ++ [p] } else u) := by
      intro g hi hg
      exact ⟨_, _, readAt_some (hu.reg.stat i g hi hg), hu.impl g, rfl⟩
    have inv' : ∀ b, TpInv cat (if b = true then { u with logged := u.logged ++ [p] } else u) conf := by
      intro b
      cases b
      · exact hu
      · exact ⟨hu.reg, hu.impl, hu.cache, hu.lookups⟩
    have hlook : u.lookups p = 1 := by rw [hu.lookups, hc]; rfl
    have fin : ∀ (b : Bool) g, (b = true ↔ EnabledIn conf g) →
        ((if b = true then { u with logged := u.logged ++ [p] } else u).logged = s.logged ++ [p] ↔
          EnabledIn conf g) ∧
        ((if b = true then { u with logged := u.logged ++ [p] } else u).logged = s.logged ++ [p] ∨
          (if b = true then { u with logged := u.logged ++ [p] } else u).logged = s.logged) := by
      intro b g hb
      rw [← hb]
      cases b
      · simp [hl]
      · simp [hl]
    have same : ∀ b, (if b = true then { u with logged := u.logged ++ [p] } else u).reg = u.reg ∧
        (if b = true then { u with logged := u.logged ++ [p] } else u).lookups = u.lookups := by
      intro b; cases b <;> exact ⟨rfl, rfl⟩
    rcases hu.cache p i hc with ⟨hi, hg⟩ | ⟨hi, hfull, hno⟩
    · obtain ⟨b, s', h1, h2, h3⟩ := main _ hi hg
      subst h3
      refine ⟨_, by rw [h1]; rfl, inv' b, by rw [(same b).2]; exact hlook, (fin b _ h2).2,
        fun _ => (fin b _ h2).1, ?_⟩
      intro hn
      rw [(same b).1] at hn
      exact absurd ⟨i, hi, hg⟩ hn
    · subst hi
      obtain ⟨b, s', h1, h2, h3⟩ := main _ (by omega) hu.reg.limit
      subst h3
      refine ⟨_, by rw [h1]; rfl, inv' b, by rw [(same b).2]; exact hlook, (fin b _ h2).2,
        ?_, fun _ => ⟨by rw [(same b).1]; exact hfull, (fin b _ h2).1⟩⟩
      intro hr
      rw [(same b).1] at hr
      exact absurd hr hno
  unfold TpSt.exec
  cases hc : s.cache p with
  | some i =>
    exact test s i h hc rfl
  | none =>
    have step : ∀ i r', s.reg.getStatus (cat p) = .ok (i, r') → RegInv r' → Grows s.reg r' →
        r'.enabled = s.reg.enabled → r'.disabled = s.reg.disabled →
        ((i < r'.count ∧ r'.groups[i]? = some (cstr (cat p))) ∨
          (i = 1 ∧ r'.count = 250 ∧ ¬ Registered r' (cat p))) →
        TpInv cat { s with
          reg := r'
          cache := fun q => if q = p then some i else s.cache q
          lookups := fun q => if q = p then s.lookups p + 1 else s.lookups q } conf := by
      intro i r' _ hr hg he hd hcell
      refine ⟨hr, ?_, ?_, ?_⟩
      · intro g
        have := h.impl g
        simp only [he, hd]; exact this
      · intro q j hq
        simp only at hq
        by_cases e : q = p
        · subst e; rw [if_pos rfl] at hq; cases hq; exact hcell
        · rw [if_neg e] at hq
          exact cache_grows hr hg (h.cache q j hq)
      · intro q
        by_cases e : q = p
        · subst e; simp [h.lookups, hc]
        · simp [e, h.lookups]
    rcases getStatus_spec h.reg (cat p) with ⟨j, hj, hgj, hs⟩ | ⟨hne, hlt, hs⟩ | ⟨hne, hfull, hs⟩
    · have hi := step j _ hs h.reg ⟨Nat.le_refl _, fun _ _ => rfl⟩ rfl rfl (.inl ⟨hj, hgj⟩)
      simp only [hs, Res.bind_ok]
      exact test _ j hi (by simp) rfl
    · have hg : Grows s.reg { s.reg with
          groups := s.reg.groups.set s.reg.count (cstr (cat p))
          statuses := s.reg.statuses.set s.reg.count
            (calculateEnabled (cstr (cat p)) s.reg.enabled s.reg.disabled)
          count := s.reg.count + 1 } :=
        ⟨Nat.le_succ _, fun i hi => by simp only; rw [List.getElem?_set_ne (by omega)]⟩
      have hi := step _ _ hs (regInv_insert h.reg (cat p) hne hlt) hg rfl rfl
        (.inl ⟨by simp, by simp only; rw [List.getElem?_set_self (by rw [h.reg.glen]; exact hlt)]⟩)
      simp only [hs, Res.bind_ok]
      exact test _ _ hi (by simp) rfl
    · have hi := step _ _ hs h.reg ⟨Nat.le_refl _, fun _ _ => rfl⟩ rfl rfl
        (.inr ⟨rfl, hfull, fun ⟨j, hj, hg⟩ => hne j hj hg⟩)
      simp only [hs, Res.bind_ok]
      exact test _ _ hi (by simp) rfl

theorem tp_run_spec {cat : Nat → Str} {s : TpSt} {conf} (h : TpInv cat s conf) (ops : List TpOp) :
    ∃ s', s.run cat ops = .ok s' ∧ TpInv cat s' ((configCalls ops).foldl inForceStep conf) := by
  induction ops generalizing s conf with
  | nil => exact ⟨s, rfl, h⟩
  | cons op ops ih =>
    cases op with
    | exec p =>
      obtain ⟨s1, h1, h2, _⟩ := exec_spec h p
      obtain ⟨s2, h3, h4⟩ := ih h2
      exact ⟨s2, by simp [TpSt.run, TpSt.step, h1, h3], h4⟩
    | reg op =>
      obtain ⟨o, r', h1, h2, h3, h4⟩ := step_spec h.reg op
      have hi : TpInv cat { s with reg := r' } (inForceStep conf op) := by
        refine ⟨h2, implements_step h.reg h.impl h1, ?_, h.lookups⟩
        intro p i hp
        exact cache_grows h2 ⟨h3, h4⟩ (h.cache p i hp)
      obtain ⟨s2, h5, h6⟩ := ih hi
      exact ⟨s2, by simp [TpSt.run, TpSt.step, h1, h5], h6⟩

/-- C51: after any history of configuration changes, lookups and executions of any trace
points, executing trace point `p` calls `logEvent` exactly when its category group is enabled
under the configuration in force at that moment, and it has looked its category up once in
all. (A group that did not fit into the registry follows "category limit reached", C09.) -/
theorem C51_sequential (cat : Nat → Str) (ops : List TpOp) (p : Nat) :
    ∃ s s', TpSt.init.run cat ops = .ok s ∧ s.exec cat p = .ok s' ∧
      s.lookups p ≤ 1 ∧ s'.lookups p = 1 ∧
      (s'.logged = s.logged ++ [p] ∨ s'.logged = s.logged) ∧
      (Registered s'.reg (cat p) →
        (s'.logged = s.logged ++ [p] ↔ EnabledIn (confAfter ops) (cstr (cat p)))) ∧
      (¬ Registered s'.reg (cat p) → s'.reg.count = 250 ∧
        (s'.logged = s.logged ++ [p] ↔
          EnabledIn (confAfter ops) "category limit reached".toList)) := by
  obtain ⟨s, h1, h2⟩ := tp_run_spec (tpInv_init cat) ops
  obtain ⟨s', h3, _, h5, h6, h7, h8⟩ := exec_spec h2 p
  refine ⟨s, s', h1, h3, ?_, h5, h6, h7, h8⟩
  rw [h2.lookups]; split <;> omega

/-- Non-vacuity: a trace point executed before tracing is enabled, while it is, after
`disableAll` and after it is enabled again logs the second and fourth time. -/
example : (do
      let s ← TpSt.init.run (fun _ => ['a']) [.exec 7, .reg (.update [['a']] []), .exec 7,
        .reg .disable, .exec 7, .reg (.update [['*']] [['b']]), .exec 7]
      pure (s.logged, s.lookups 7) : Res (List Nat × Nat)) = .ok ([7, 7], 1) := by
  decide +kernel

/-! ### Concurrent executions -/

namespace TpConc
open RegConc (CellIs Hist inv_reachable)

theorem reg_results_mono {s s' : RegConc.St} (st : RegConc.Step s s') {x} (h : x ∈ s.results) :
    x ∈ s'.results := by
  cases st <;> first | exact h | exact List.mem_cons_of_mem _ h

theorem Reachable.reg {cat s} (h : Reachable cat s) : RegConc.Reachable s.reg := by
  induction h with
  | init => exact .init
  | step _ st ih =>
    cases st with
    | reg h _ => exact .step ih h
    | enter => exact ih
    | enterFirst _ _ _ _ h => exact .step ih h
    | found _ _ _ _ h => exact .step ih h
    | store => exact ih
    | test => exact ih

/-- A pointer a trace point holds was returned by a lookup of its category. -/
structure TInv (cat : Nat → Str) (s : St) : Prop where
  cache : ∀ p i, s.cache p = some i → (cat p, i) ∈ s.reg.results
  storing : ∀ t p i, s.pc t = .storing p i → (cat p, i) ∈ s.reg.results
  testing : ∀ t p i, s.pc t = .testing p i → (cat p, i) ∈ s.reg.results ∧ s.cache p = some i
  looks : ∀ t p, s.lookups t p ≤ 1
  looked : ∀ t p, s.lookups t p = 1 → s.cache p ≠ none ∨ s.pc t = .looking p ∨
    ∃ i, s.pc t = .storing p i

theorem setPc_self (f : Nat → Pc) (t : Nat) (q : Pc) : setPc f t q t = q := by simp [setPc]

theorem setPc_ne (f : Nat → Pc) {t u : Nat} (q : Pc) (h : u ≠ t) : setPc f t q u = f u := by
  simp [setPc, h]

theorem tInv {cat s} (h : Reachable cat s) : TInv cat s := by
  induction h with
  | init =>
    exact ⟨fun _ _ h => (by cases h), fun _ _ _ h => (by cases h), fun _ _ _ h => (by cases h),
      fun _ _ => Nat.zero_le _, fun _ _ h => (by cases h)⟩
  | @step s s' hr st ih =>
    cases st with
    | reg hs _ =>
      exact ⟨fun p i h => reg_results_mono hs (ih.cache p i h),
        fun t p i h => reg_results_mono hs (ih.storing t p i h),
        fun t p i h => ⟨reg_results_mono hs (ih.testing t p i h).1, (ih.testing t p i h).2⟩,
        ih.looks, ih.looked⟩
    | @enter t p i h1 _ h3 =>
      refine ⟨ih.cache, ?_, ?_, ih.looks, ?_⟩
      · intro u q j hq
        by_cases e : u = t
        · subst e; simp only [setPc_self] at hq; cases hq
        · simp only [setPc_ne _ _ e] at hq; exact ih.storing u q j hq
      · intro u q j hq
        by_cases e : u = t
        · subst e; simp only [setPc_self] at hq; cases hq; exact ⟨ih.cache p i h3, h3⟩
        · simp only [setPc_ne _ _ e] at hq; exact ih.testing u q j hq
      · intro u q hq
        by_cases e : u = t
        · subst e
          rcases ih.looked u q hq with h | h | ⟨j, h⟩
          · exact .inl h
          · rw [h1] at h; cases h
          · rw [h1] at h; cases h
        · simp only [setPc_ne _ _ e]; exact ih.looked u q hq
    | @enterFirst t p r' h1 _ h3 hr' hs =>
      refine ⟨fun q i h => reg_results_mono hs (ih.cache q i h), ?_, ?_, ?_, ?_⟩
      · intro u q j hq
        by_cases e : u = t
        · subst e; simp only [setPc_self] at hq; cases hq
        · simp only [setPc_ne _ _ e] at hq; exact reg_results_mono hs (ih.storing u q j hq)
      · intro u q j hq
        by_cases e : u = t
        · subst e; simp only [setPc_self] at hq; cases hq
        · simp only [setPc_ne _ _ e] at hq
          exact ⟨reg_results_mono hs (ih.testing u q j hq).1, (ih.testing u q j hq).2⟩
      · intro u q
        by_cases e : u = t ∧ q = p
        · simp only [e, and_self, if_true]
          obtain ⟨e1, e2⟩ := e
          subst e1; subst e2
          have := ih.looks u q
          have h0 : s.lookups u q ≠ 1 := by
            intro h
            rcases ih.looked u q h with h | h | ⟨j, h⟩
            · exact h h3
            · rw [h1] at h; cases h
            · rw [h1] at h; cases h
          omega
        · simp only [e, if_false]; exact ih.looks u q
      · intro u q hq
        by_cases e : u = t ∧ q = p
        · obtain ⟨e1, e2⟩ := e
          subst e1; subst e2
          exact .inr (.inl (setPc_self _ _ _))
        · simp only [e, if_false] at hq
          by_cases e1 : u = t
          · subst e1
            rcases ih.looked u q hq with h | h | ⟨j, h⟩
            · exact .inl h
            · rw [h1] at h; cases h
            · rw [h1] at h; cases h
          · simp only [setPc_ne _ _ e1]; exact ih.looked u q hq
    | @found t p i r' h1 _ _ h4 hs =>
      refine ⟨fun q j h => reg_results_mono hs (ih.cache q j h), ?_, ?_, ih.looks, ?_⟩
      · intro u q j hq
        by_cases e : u = t
        · subst e; simp only [setPc_self] at hq; cases hq; simp only [h4]; exact List.mem_cons_self
        · simp only [setPc_ne _ _ e] at hq; exact reg_results_mono hs (ih.storing u q j hq)
      · intro u q j hq
        by_cases e : u = t
        · subst e; simp only [setPc_self] at hq; cases hq
        · simp only [setPc_ne _ _ e] at hq
          exact ⟨reg_results_mono hs (ih.testing u q j hq).1, (ih.testing u q j hq).2⟩
      · intro u q hq
        by_cases e : u = t
        · subst e
          rcases ih.looked u q hq with h | h | ⟨j, h⟩
          · exact .inl h
          · rw [h1] at h; cases h; exact .inr (.inr ⟨i, setPc_self _ _ _⟩)
          · rw [h1] at h; cases h
        · simp only [setPc_ne _ _ e]; exact ih.looked u q hq
    | @store t p i h1 =>
      have hi := ih.storing t p i h1
      refine ⟨?_, ?_, ?_, ih.looks, ?_⟩
      · intro q j hq
        by_cases e : q = p
        · subst e; simp only [if_true] at hq; cases hq; exact hi
        · simp only [e, if_false] at hq; exact ih.cache q j hq
      · intro u q j hq
        by_cases e : u = t
        · subst e; simp only [setPc_self] at hq; cases hq
        · simp only [setPc_ne _ _ e] at hq; exact ih.storing u q j hq
      · intro u q j hq
        by_cases e : u = t
        · subst e; simp only [setPc_self] at hq; cases hq; exact ⟨hi, if_pos rfl⟩
        · simp only [setPc_ne _ _ e] at hq
          refine ⟨(ih.testing u q j hq).1, ?_⟩
          by_cases e' : q = p
          · subst e'
            simp only [if_true]
            exact congrArg some (RegConc.C07_stable_cell hr.reg hi (ih.testing u q j hq).1)
          · simp only [e', if_false]; exact (ih.testing u q j hq).2
      · intro u q hq
        by_cases e' : q = p
        · left; simp [e']
        · by_cases e : u = t
          · subst e
            rcases ih.looked u q hq with h | h | ⟨j, h⟩
            · left; simpa [e'] using h
            · rw [h1] at h; cases h
            · rw [h1] at h; cases h; exact absurd rfl e'
          · simp only [setPc_ne _ _ e, e', if_false]; exact ih.looked u q hq
    | @test t p i h1 =>
      refine ⟨ih.cache, ?_, ?_, ih.looks, ?_⟩
      · intro u q j hq
        by_cases e : u = t
        · subst e; simp only [setPc_self] at hq; cases hq
        · simp only [setPc_ne _ _ e] at hq; exact ih.storing u q j hq
      · intro u q j hq
        by_cases e : u = t
        · subst e; simp only [setPc_self] at hq; cases hq
        · simp only [setPc_ne _ _ e] at hq; exact ih.testing u q j hq
      · intro u q hq
        by_cases e : u = t
        · subst e
          rcases ih.looked u q hq with h | h | ⟨j, h⟩
          · exact .inl h
          · rw [h1] at h; cases h
          · rw [h1] at h; cases h
        · simp only [setPc_ne _ _ e]; exact ih.looked u q hq

/-- The group whose decision trace point `p` must follow: its own, or the group of the
overflow cell when the registry is full without it. -/
def Follows (cat : Nat → Str) (s : St) (p : Nat) (g : Str) : Prop :=
  ((∃ j, j < s.reg.count ∧ s.reg.groups j = cat p) ∧ g = cat p) ∨
  (s.reg.count = 250 ∧ (∀ j, j < 250 → s.reg.groups j ≠ cat p) ∧
    g = "category limit reached".toList)

/-- When a thread in trace point `p` is about to test the status, the value it will load is a
decision for the category group of `p`. -/
theorem status_testing {cat s} (h : Reachable cat s) {c} (hc : Hist s.reg c) {t p i : Nat}
    (ht : s.pc t = .testing p i) : ∃ g, Follows cat s p g ∧
      ((s.reg.statuses i = true ↔ GroupEnabled c.1 c.2 g) ∨
        ∃ t' u, (s.reg.pc t').up = some u ∧
          (s.reg.statuses i = true ↔ GroupEnabled u.en u.dis g)) := by
  have hres := ((tInv h).testing t p i ht).1
  have inv := inv_reachable h.reg
  have key : ∀ g, i < s.reg.count → s.reg.groups i = g →
      ((s.reg.statuses i = true ↔ GroupEnabled c.1 c.2 g) ∨
        ∃ t' u, (s.reg.pc t').up = some u ∧
          (s.reg.statuses i = true ↔ GroupEnabled u.en u.dis g)) := by
    intro g hi hg
    subst hg
    exact RegConc.C08_during_update hc hi
  rcases RegConc.C07_right_cell h.reg hres with ⟨h1, h2⟩ | ⟨h1, h2, h3⟩
  · exact ⟨_, .inl ⟨⟨i, h1, h2⟩, rfl⟩, key _ h1 h2⟩
  · subst h1
    exact ⟨_, .inr ⟨h2, h3, rfl⟩, key _ (by omega) inv.limit⟩

/-- The step in which a thread leaves a trace point is the test of the status, and `logEvent` is
called exactly if the status loaded is not Disabled. -/
theorem step_out {cat s s'} (st : Step cat s s') {t p i : Nat} (ht : s.pc t = .testing p i)
    (ho : s'.pc t = .out) : s'.tested = (p, i, s.reg.statuses i) :: s.tested := by
  have key : ∀ (v : Nat) (q : Pc), setPc s.pc v q t = .out → v = t ∧ q = .out := by
    intro v q h
    by_cases e : t = v
    · subst e; rw [setPc_self] at h; exact ⟨rfl, h⟩
    · rw [setPc_ne _ _ e, ht] at h; cases h
  cases st with
  | reg => exact absurd (ht.symm.trans ho) (by simp)
  | enter => have := (key _ _ ho).2; cases this
  | enterFirst => have := (key _ _ ho).2; cases this
  | found => have := (key _ _ ho).2; cases this
  | store => have := (key _ _ ho).2; cases this
  | test h1 =>
    have := (key _ _ ho).1; subst this
    rw [ht] at h1; cases h1
    rfl

/-- C51, concurrent: when a thread leaves trace point `p`, whether it called `logEvent` is the
decision for the category group of `p` under the configuration `c` of the last finished update,
or under that of the update in progress. -/
theorem C51_concurrent {cat s s'} (h : Reachable cat s) {c} (hc : Hist s.reg c) {t p i : Nat}
    (ht : s.pc t = .testing p i) (st : Step cat s s') (ho : s'.pc t = .out) :
    ∃ logged g, s'.tested = (p, i, logged) :: s.tested ∧ Follows cat s p g ∧
      ((logged = true ↔ GroupEnabled c.1 c.2 g) ∨
        ∃ t' u, (s.reg.pc t').up = some u ∧
          (logged = true ↔ GroupEnabled u.en u.dis g)) := by
  obtain ⟨g, hg, h1⟩ := status_testing h hc ht
  exact ⟨_, g, step_out st ht ho, hg, h1⟩

/-- C51, concurrent: without an update in progress the last finished one decides. -/
theorem C51_quiet {cat s s'} (h : Reachable cat s) {c} (hc : Hist s.reg c) {t p i : Nat}
    (ht : s.pc t = .testing p i) (st : Step cat s s') (ho : s'.pc t = .out)
    (hq : ∀ u, (s.reg.pc u).up = none) :
    ∃ logged g, s'.tested = (p, i, logged) :: s.tested ∧ Follows cat s p g ∧
      (logged = true ↔ GroupEnabled c.1 c.2 g) := by
  obtain ⟨b, g, h0, hg, h1 | ⟨t', u, h1, _⟩⟩ := C51_concurrent h hc ht st ho
  · exact ⟨b, g, h0, hg, h1⟩
  · rw [hq t'] at h1; cases h1

/-- C51, concurrent: a trace point's pointer, once set, never changes, so no later execution
looks the category up again. -/
theorem C51_pointer_stable {cat s s'} (h : Reachable cat s) (st : Step cat s s') {p i : Nat}
    (hp : s.cache p = some i) : s'.cache p = some i := by
  cases st with
  | reg => exact hp
  | enter => exact hp
  | enterFirst => exact hp
  | found => exact hp
  | @store t q j h1 =>
    by_cases e : p = q
    · subst e
      simp only [if_true]
      exact congrArg some (RegConc.C07_stable_cell h.reg ((tInv h).storing t p j h1)
        ((tInv h).cache p i hp))
    · simp only [e, if_false]; exact hp
  | test => exact hp

/-- C51, concurrent: every thread looks the category of a trace point up at most once. -/
theorem C51_lookups {cat s} (h : Reachable cat s) (t p : Nat) : s.lookups t p ≤ 1 :=
  (tInv h).looks t p

/-- But "at most once" does not hold over all threads: two threads that reach a trace point
for the first time together both look its category up. -/
theorem C51_lookups_refuted : ∃ (cat : Nat → Str) (s : St) (p : Nat), Reachable cat s ∧
    s.lookups 0 p = 1 ∧ s.lookups 1 p = 1 := by
  have r := Reachable.init (cat := fun _ => ['a'])
  have r := r.step (.enterFirst (t := 0) (p := 5) rfl rfl rfl rfl (.call rfl (by decide)))
  have r := r.step (.enterFirst (t := 1) (p := 5) rfl rfl rfl rfl (.call rfl (by decide)))
  exact ⟨_, _, 5, r, rfl, rfl⟩

theorem keep_up {s s' : RegConc.St} {t : Nat} {q : RegConc.Pc}
    (h : s'.pc = RegConc.upd s.pc t q) (hq : ∀ x, (s.pc t).up = some x → q.up = some x) :
    ∀ v x, (s.pc v).up = some x → (s'.pc v).up = some x := by
  intro v x hx
  rw [h]
  by_cases e : v = t
  · subst e; rw [RegConc.upd_self]; exact hq x hx
  · rw [RegConc.upd_ne _ _ e]; exact hx

/-- A registry step while no thread is in a trace point. -/
theorem both_step {cat : Nat → Str} {s : St} {r' : RegConc.St} {c}
    (h : Reachable cat s ∧ Hist s.reg c ∧ s.pc = fun _ => .out) (st : RegConc.Step s.reg r')
    (hk : ∀ v x, (s.reg.pc v).up = some x → (r'.pc v).up = some x) :
    Reachable cat { s with reg := r' } ∧ Hist r' c ∧ s.pc = fun _ => .out :=
  ⟨.step h.1 (.reg st (fun t ht => absurd (by rw [h.2.2]) ht)), .other h.2.1 st hk, h.2.2⟩

theorem both_done {cat : Nat → Str} {s : St} {r' : RegConc.St} {c} {t : Nat} {u : RegConc.Upd}
    (h : Reachable cat s ∧ Hist s.reg c ∧ s.pc = fun _ => .out) (st : RegConc.Step s.reg r')
    (h1 : (s.reg.pc t).up = some u) (h2 : (r'.pc t).up = none) :
    Reachable cat { s with reg := r' } ∧ Hist r' (u.en, u.dis) :=
  ⟨.step h.1 (.reg st (fun t ht => absurd (by rw [h.2.2]) ht)), .done h.2.1 st h1 h2⟩

theorem both_go {cat : Nat → Str} {s s' : St} {r' : RegConc.St} {c}
    (h : Reachable cat s ∧ Hist s.reg c) (st : RegConc.Step s.reg r')
    (hs : RegConc.Step s.reg r' → Step cat s s')
    (hk : ∀ v x, (s.reg.pc v).up = some x → (r'.pc v).up = some x) (he : s'.reg = r') :
    Reachable cat s' ∧ Hist s'.reg c :=
  ⟨.step h.1 (hs st), by rw [he]; exact .other h.2 st hk⟩

/-- Non-vacuity: thread 1 enables everything, then thread 0 reaches the test of a trace point
on "default" for the first time: the status is Enabled, so the test calls `logEvent`. -/
example : ∃ s, Reachable (fun _ => "default".toList) s ∧ Hist s.reg ([['*']], []) ∧
    s.pc 0 = .testing 5 0 ∧ s.reg.statuses 0 = true ∧ ∀ u, (s.reg.pc u).up = none := by
  have r : Reachable (fun _ => "default".toList) St.init ∧ Hist St.init.reg ([], []) ∧
    St.init.pc = fun _ => .out := ⟨.init, .init, rfl⟩
  have r := both_step r (.callUpd (t := 1) (u := .update [['*']] []) rfl)
    (keep_up rfl (by intro x h; cases h))
  have r := both_step r (.uLock (t := 1) rfl rfl) (keep_up rfl (by intro x h; cases h))
  have r := both_step r (.uEn (t := 1) rfl) (keep_up rfl (fun x h => h))
  have r := both_step r (.uDis (t := 1) rfl) (keep_up rfl (fun x h => h))
  have r := both_step r (.uLoad (t := 1) rfl) (keep_up rfl (fun x h => h))
  have r := both_step r (.uStore (t := 1) rfl (by decide)) (keep_up rfl (fun x h => h))
  have r := both_step r (.uStore (t := 1) rfl (by decide)) (keep_up rfl (fun x h => h))
  have r := both_step r (.uStore (t := 1) rfl (by decide)) (keep_up rfl (fun x h => h))
  have h := both_done (t := 1) (u := .update [['*']] []) r (.uRet (t := 1) rfl (by decide)) rfl rfl
  clear r
  have h := both_go h (.call (t := 0) (n := "default".toList) rfl (by decide))
    (fun st => .enterFirst (t := 0) (p := 5) rfl rfl rfl rfl st)
    (keep_up rfl (by intro x h; cases h)) rfl
  have h := both_go h (.scan1Hit (t := 0) rfl (by decide) rfl)
    (fun st => .found (t := 0) (p := 5) (i := 0) rfl (by intro h; cases h) rfl rfl st)
    (keep_up rfl (by intro x h; cases h)) rfl
  have h1 := Reachable.step h.1 (.store (t := 0) (p := 5) (i := 0) rfl)
  have h2 := h.2
  refine ⟨_, h1, h2, rfl, ?_, ?_⟩
  · decide +kernel
  · intro u
    by_cases e : u = 0
    · subst e; rfl
    · by_cases e1 : u = 1
      · subst e1; rfl
      · simp [St.init, RegConc.St.init, RegConc.St.goto, RegConc.upd, e, e1, RegConc.Pc.up]

end TpConc
end Phosphor
