import Verif.Proof.CategoryRegistryConc
import Verif.Proof.RegHist
/-
Properties C06–C10: category registry.
-/
namespace Phosphor

/-! ### C06 Category group enablement decision -/

/-- The decision as specified: some comma-separated category of the group matches an enabled
pattern and no disabled pattern. -/
def GroupEnabled (enabled disabled : List Str) (group : Str) : Prop :=
  ∃ c ∈ splitString group ',',
    (∃ p ∈ enabled, globMatch p c = true) ∧ ¬ ∃ p ∈ disabled, globMatch p c = true

/-- C06 -/
theorem C06_decision (group : Str) (enabled disabled : List Str) :
    calculateEnabled group enabled disabled = true ↔ GroupEnabled enabled disabled group := by
  rw [calculateEnabled_iff]
  constructor
  · rintro ⟨c, hc, h1, h2⟩
    refine ⟨c, hc, h1, ?_⟩
    rintro ⟨p, hp, h⟩
    rw [h2 p hp] at h; cases h
  · rintro ⟨c, hc, h1, h2⟩
    refine ⟨c, hc, h1, ?_⟩
    intro p hp
    rw [Bool.eq_false_iff]
    exact fun h => h2 ⟨p, hp, h⟩

/-- C06: a single-category group with the default configuration `{"*"}`, `{}` is enabled. -/
theorem C06_default (group : Str) : calculateEnabled group [['*']] [] = true := by
  rw [C06_decision]
  have hne : splitString group ',' ≠ [] ∨ splitString group ',' = [] := by
    by_cases h : splitString group ',' = [] <;> simp [h]
  rcases hne with h | h
  · cases hs : splitString group ',' with
    | nil => exact absurd hs h
    | cons c cs =>
      exact ⟨c, by simp [hs], ⟨['*'], by simp, by simp [globMatch, globLoop]⟩, by simp⟩
  · exfalso
    unfold splitString at h
    split at h
    · cases h
    · next hg =>
      cases group with
      | nil => exact hg rfl
      | cons a g =>
        rw [splitLoop, getline] at h
        simp only [Bool.false_eq_true, if_false] at h
        have hgrow : ∀ fuel ss (acc : List Str), acc ≠ [] → splitLoop ',' fuel ss acc ≠ [] := by
          intro fuel
          induction fuel with
          | zero => intro ss acc ha; simpa [splitLoop] using ha
          | succ n ih =>
            intro ss acc ha
            unfold splitLoop
            split
            · exact ha
            · exact ih _ _ (by simp)
        cases hsc : getlineScan ',' (a :: g) with
        | mk i r =>
          rw [hsc] at h
          cases r with
          | some r => exact hgrow _ _ _ (by simp) h
          | none =>
            simp only at h
            by_cases hi : i = []
            · subst hi
              unfold getlineScan at hsc
              split at hsc <;> simp at hsc
            · simp only [hi, if_false] at h
              exact hgrow _ _ _ (by simp) h

example : calculateEnabled "x,net:read".toList ["net:*".toList] ["net:write".toList] = true := by
  decide
example : calculateEnabled "net:write".toList ["net:*".toList] ["net:write".toList] = false := by
  decide

/-! ### Sequential histories -/

/-- Effect of one call on the configuration in force. -/
def inForceStep (c : Option (List Str × List Str)) : RegOp → Option (List Str × List Str)
  | .lookup _ => c
  | .update e d => some (e, d)
  | .disable => none

/-- Configuration in force after a history, from the API calls alone: `none` when all
categories are disabled (initially and after `disableAll`). -/
def inForce (ops : List RegOp) : Option (List Str × List Str) := ops.foldl inForceStep none

/-- Whether a group is enabled under a configuration in force. -/
def EnabledIn (conf : Option (List Str × List Str)) (group : Str) : Prop :=
  match conf with
  | none => False
  | some (e, d) => GroupEnabled e d group

/-- The registry's lists implement a configuration. -/
def Implements (r : Registry) (conf : Option (List Str × List Str)) : Prop :=
  ∀ g, calculateEnabled g r.enabled r.disabled = true ↔ EnabledIn conf g

theorem implements_step {r r' : Registry} {conf} {op : RegOp} {o} (h : RegInv r)
    (hi : Implements r conf) (hs : r.step op = .ok (o, r')) :
    Implements r' (inForceStep conf op) := by
  cases op with
  | lookup n =>
    have : r'.enabled = r.enabled ∧ r'.disabled = r.disabled := by
      rcases getStatus_spec h n with ⟨j, _, _, h1⟩ | ⟨hne, hc, h1⟩ | ⟨_, _, h1⟩ <;>
        simp only [Registry.step, h1, Res.bind_ok, Res.pure_eq, Res.ok.injEq, Prod.mk.injEq] at hs <;>
        rw [← hs.2] <;> exact ⟨rfl, rfl⟩
    intro g; rw [this.1, this.2]; exact hi g
  | update e d =>
    obtain ⟨r2, h1, _, _, _, h5, h6⟩ := updateEnabled_spec h e d
    simp only [Registry.step, h1, Res.bind_ok, Res.pure_eq, Res.ok.injEq, Prod.mk.injEq] at hs
    rw [← hs.2]
    intro g; rw [h5, h6]; exact C06_decision g e d
  | disable =>
    obtain ⟨r2, h1, _, _, _, h5, h6⟩ := disableAll_spec h
    simp only [Registry.step, h1, Res.bind_ok, Res.pure_eq, Res.ok.injEq, Prod.mk.injEq] at hs
    rw [← hs.2]
    intro g; rw [h5, h6, calculateEnabled_disabled]; simp [inForceStep, EnabledIn]

theorem implements_run {r r' : Registry} {conf} {ops : List RegOp} (h : RegInv r)
    (hi : Implements r conf) (hs : r.run ops = .ok r') :
    Implements r' (ops.foldl inForceStep conf) := by
  induction ops generalizing r conf with
  | nil => cases hs; exact hi
  | cons op ops ih =>
    obtain ⟨o, r1, h1, h2, _, _⟩ := step_spec h op
    simp only [Registry.run, h1, Res.bind_ok] at hs
    exact ih h2 (implements_step h hi h1) hs

theorem implements_init : Implements Registry.init none := by
  intro g
  show calculateEnabled g [] [] = true ↔ False
  rw [calculateEnabled_nil]; simp

/-! ### C08 Status cells always reflect the configuration in force -/

/-- C08: after any history every registered group's cell holds the decision of C06 for the
configuration in force. -/
theorem C08_cells_follow_config (ops : List RegOp) :
    ∃ r, Registry.init.run ops = .ok r ∧
      ∀ i g, i < r.count → r.groups[i]? = some g →
        ∃ b, r.cell i = .ok b ∧ (b = true ↔ EnabledIn (inForce ops) g) := by
  obtain ⟨r, h1, h2, _, _⟩ := run_spec regInv_init ops
  refine ⟨r, h1, ?_⟩
  intro i g hi hg
  refine ⟨_, readAt_some (h2.stat i g hi hg), ?_⟩
  exact implements_run regInv_init implements_init h1 g

/-- C08, as seen through the API: the reference obtained by a lookup at any moment keeps
reading the decision for that group under whatever configuration is in force later. The
exception is a group that did not fit (C09): its cell follows "category limit reached". -/
theorem C08_reference_follows_config (ops ops' : List RegOp) (name : Str) :
    ∃ r i r1 r2 b, Registry.init.run ops = .ok r ∧ r.getStatus name = .ok (i, r1) ∧
      r1.run ops' = .ok r2 ∧ r2.cell i = .ok b ∧
      ((∃ j, j < r.count ∧ r.groups[j]? = some (cstr name)) ∨ r.count < 250 →
        (b = true ↔ EnabledIn (inForce (ops ++ .lookup name :: ops')) (cstr name))) ∧
      ((¬ ∃ j, j < r.count ∧ r.groups[j]? = some (cstr name)) ∧ r.count = 250 →
        (b = true ↔ EnabledIn (inForce (ops ++ .lookup name :: ops'))
          "category limit reached".toList)) := by
  obtain ⟨r, h1, h2, _, _⟩ := run_spec regInv_init ops
  have himp := implements_run regInv_init implements_init h1
  have main : ∀ i r1 g, r.getStatus name = .ok (i, r1) → i < r1.count → r1.groups[i]? = some g →
      ∃ r2 b, r1.run ops' = .ok r2 ∧ r2.cell i = .ok b ∧
        (b = true ↔ EnabledIn (inForce (ops ++ .lookup name :: ops')) g) := by
    intro i r1 g hg hi hgi
    have hinv := regInv_getStatus h2 hg
    obtain ⟨r2, h3, h4, h5, h6⟩ := run_spec hinv ops'
    have hstep : r.step (.lookup name) = .ok (some i, r1) := by simp [Registry.step, hg]
    have himp1 := implements_step h2 himp hstep
    have himp2 := implements_run hinv himp1 h3
    refine ⟨r2, _, h3, readAt_some (h4.stat i g (by omega) (by rw [h6 i hi]; exact hgi)), ?_⟩
    have := himp2 g
    simpa [inForce, List.foldl_append] using this
  rcases getStatus_spec h2 name with ⟨j, hj, hgj, hs⟩ | ⟨hne, hc, hs⟩ | ⟨hne, hc, hs⟩
  · obtain ⟨r2, b, h3, h4, h5⟩ := main j r _ hs hj hgj
    refine ⟨r, j, r, r2, b, h1, hs, h3, h4, fun _ => h5, fun h => absurd ⟨j, hj, hgj⟩ h.1⟩
  · obtain ⟨r2, b, h3, h4, h5⟩ := main _ _ (cstr name) hs (by simp)
      (by simp only; rw [List.getElem?_set_self (by rw [h2.glen]; exact hc)])
    exact ⟨r, _, _, r2, b, h1, hs, h3, h4, fun _ => h5, fun h => by omega⟩
  · have := h2.clow
    obtain ⟨r2, b, h3, h4, h5⟩ := main 1 r _ hs (by omega) h2.limit
    refine ⟨r, 1, r, r2, b, h1, hs, h3, h4, ?_, fun _ => h5⟩
    rintro (⟨j, hj, hgj⟩ | h)
    · exact absurd hgj (hne j hj)
    · omega

/-! ### C09 Registry limit is safe -/

/-- C09: no history leaves the arrays (`run` never is `ub`); the number of groups never
exceeds 250 and never shrinks; registered groups stay where they are. -/
theorem C09_bounds (ops ops' : List RegOp) :
    ∃ r r', Registry.init.run ops = .ok r ∧ r.run ops' = .ok r' ∧
      r.count ≤ r'.count ∧ r'.count ≤ 250 ∧
      ∀ i, i < r.count → r'.groups[i]? = r.groups[i]? := by
  obtain ⟨r, h1, h2, _, _⟩ := run_spec regInv_init ops
  obtain ⟨r', h3, h4, h5, h6⟩ := run_spec h2 ops'
  exact ⟨r, r', h1, h3, h5, h4.chigh, h6⟩

/-- C09: once full, every unknown group gets the cell of "category limit reached" and
nothing changes. -/
theorem C09_full (ops : List RegOp) (r : Registry) (hr : Registry.init.run ops = .ok r)
    (hfull : r.count = 250) (name : Str)
    (hunk : ∀ i, i < 250 → r.groups[i]? ≠ some (cstr name)) :
    r.getStatus name = .ok (1, r) ∧ r.groups[1]? = some "category limit reached".toList := by
  obtain ⟨r', h1, h2, _, _⟩ := run_spec regInv_init ops
  rw [hr] at h1; cases h1
  rcases getStatus_spec h2 name with ⟨j, hj, hgj, _⟩ | ⟨_, hc, _⟩ | ⟨_, _, hs⟩
  · exact absurd hgj (hunk j (by omega))
  · omega
  · exact ⟨hs, h2.limit⟩

/-- C09: while there is room an unknown group gets a fresh cell of its own. -/
theorem C09_room (ops : List RegOp) (r : Registry) (hr : Registry.init.run ops = .ok r)
    (hroom : r.count < 250) (name : Str)
    (hunk : ∀ i, i < r.count → r.groups[i]? ≠ some (cstr name)) :
    ∃ r', r.getStatus name = .ok (r.count, r') ∧ r'.count = r.count + 1 ∧
      r'.groups[r.count]? = some (cstr name) := by
  obtain ⟨r', h1, h2, _, _⟩ := run_spec regInv_init ops
  rw [hr] at h1; cases h1
  rcases getStatus_spec h2 name with ⟨j, hj, hgj, _⟩ | ⟨_, hc, hs⟩ | ⟨_, hc, _⟩
  · exact absurd hgj (hunk j hj)
  · refine ⟨_, hs, rfl, ?_⟩
    simp only
    rw [List.getElem?_set_self (by rw [h2.glen]; exact hc)]
  · omega

/-- A full registry is reachable: looking up 247 different groups fills it. -/
theorem registry_can_fill (k : Nat) (hk : k ≤ 247) :
    ∃ r, Registry.init.run ((List.range k).map (fun i => .lookup (List.replicate (100 + i) 'x')))
      = .ok r ∧ r.count = 3 + k ∧
      ∀ i g, i < r.count → r.groups[i]? = some g → g.length < 100 + k := by
  induction k with
  | zero =>
    refine ⟨Registry.init, rfl, rfl, ?_⟩
    intro i g hi hg
    change i < 3 at hi
    rw [init_groups_lt hi] at hg
    match i, hi with
    | 0, _ | 1, _ | 2, _ => cases hg; decide
  | succ k ih =>
    obtain ⟨r, h1, h2, h3⟩ := ih (by omega)
    have hfree : '\x00' ∉ List.replicate (100 + k) 'x' := by
      intro h; have := List.eq_of_mem_replicate h; revert this; decide
    obtain ⟨r', h4, h5, h6⟩ := C09_room _ r h1 (by omega) (List.replicate (100 + k) 'x') (by
      rw [cstr_of_free hfree]
      intro i hi hg
      have := h3 i _ hi hg
      rw [List.length_replicate] at this
      omega)
    rw [cstr_of_free hfree] at h6
    refine ⟨r', ?_, by omega, ?_⟩
    · rw [List.range_succ, List.map_append, run_append, h1]
      simp [Registry.run, Registry.step, h4]
    · intro i g hi hg
      have hinv : RegInv r := by
        obtain ⟨r'', h7, h8, _, _⟩ := run_spec regInv_init _
        rw [h1] at h7; cases h7; exact h8
      by_cases hir : i = r.count
      · subst hir; rw [h6] at hg; cases hg; rw [List.length_replicate]; omega
      · obtain ⟨o, r'', h7, _, _, h10⟩ := step_spec hinv (.lookup (List.replicate (100 + k) 'x'))
        simp only [Registry.step, h4, Res.bind_ok, Res.pure_eq, Res.ok.injEq,
          Prod.mk.injEq] at h7
        rw [← h7.2] at h10
        have := h3 i g (by omega) (by rw [← h10 i (by omega)]; exact hg)
        omega

/-- Non-vacuity of `C09_full`: a full registry and an unknown group. -/
example : ∃ ops r, Registry.init.run ops = .ok r ∧ r.count = 250 ∧
    ∀ i, i < 250 → r.groups[i]? ≠ some (cstr (List.replicate 1000 'y')) := by
  obtain ⟨r, h1, h2, h3⟩ := registry_can_fill 247 (by omega)
  refine ⟨_, r, h1, h2, ?_⟩
  intro i hi hg
  have hfree : '\x00' ∉ List.replicate 1000 'y' := by
    intro h; have := List.eq_of_mem_replicate h; revert this; decide
  rw [cstr_of_free hfree] at hg
  have := h3 i _ (by omega) hg
  rw [List.length_replicate] at this
  omega

/-! ### C10 Stopping disables every category -/

/-- A call that does not enable anything. -/
def RegOp.NoEnable : RegOp → Prop
  | .update _ _ => False
  | _ => True

/-- C10: after `disableAll`, and until the next `updateEnabled`, every cell handed out so far
reads Disabled, and so does every cell handed out from then on. -/
theorem C10_disableAll (ops ops' : List RegOp) (hno : ∀ op ∈ ops', op.NoEnable) :
    ∃ r, Registry.init.run (ops ++ .disable :: ops') = .ok r ∧
      (∀ i, i < r.count → r.cell i = .ok false) ∧
      ∀ name, ∃ i r', r.getStatus name = .ok (i, r') ∧ r'.cell i = .ok false := by
  obtain ⟨r, h1, h2, _, _⟩ := run_spec regInv_init (ops ++ .disable :: ops')
  have himp := implements_run regInv_init implements_init h1
  have hnone : ∀ (l : List RegOp), (∀ op ∈ l, op.NoEnable) → l.foldl inForceStep none = none := by
    intro l
    induction l with
    | nil => simp
    | cons op l ih =>
      intro h
      have hop := h op (by simp)
      have := ih (fun o ho => h o (by simp [ho]))
      cases op with
      | lookup n => simpa [inForceStep] using this
      | update e d => exact absurd hop (by simp [RegOp.NoEnable])
      | disable => simpa [inForceStep] using this
  rw [List.foldl_append, List.foldl_cons] at himp
  rw [show inForceStep (ops.foldl inForceStep none) .disable = none from rfl, hnone _ hno] at himp
  have hfalse : ∀ r' : Registry, RegInv r' → r'.enabled = r.enabled → r'.disabled = r.disabled →
      ∀ i, i < r'.count → r'.cell i = .ok false := by
    intro r' hr' he hd i hi
    have hl : i < r'.groups.length := by rw [hr'.glen]; have := hr'.chigh; omega
    have := hr'.stat i r'.groups[i] hi (List.getElem?_eq_getElem hl)
    refine readAt_some (this.trans ?_)
    congr 1
    rw [he, hd, Bool.eq_false_iff]
    intro h
    exact (himp _).1 h
  refine ⟨r, h1, hfalse r h2 rfl rfl, ?_⟩
  intro name
  have hcl := h2.clow
  rcases getStatus_spec h2 name with ⟨j, hj, hgj, hs⟩ | ⟨hne, hc, hs⟩ | ⟨_, _, hs⟩
  · exact ⟨j, r, hs, hfalse r h2 rfl rfl j hj⟩
  · exact ⟨_, _, hs, hfalse _ (regInv_insert h2 name hne hc) rfl rfl _ (by simp)⟩
  · exact ⟨1, r, hs, hfalse r h2 rfl rfl 1 (by omega)⟩

example : ∀ op ∈ [RegOp.lookup "a".toList, .disable], op.NoEnable := by
  simp [RegOp.NoEnable]

/-! ### C07 One stable status cell per group, under concurrency -/

namespace RegConc

/-- C07: all lookups of one group return the same cell, in every interleaving. -/
theorem C07_stable_cell {s : St} (h : Reachable s) {n : Str} {i j : Nat}
    (hi : (n, i) ∈ s.results) (hj : (n, j) ∈ s.results) : i = j := by
  have inv := inv_reachable h
  have h250 := inv.chigh
  rcases inv.res _ hi with ⟨h1, h2⟩ | ⟨h1, h2, h3⟩ <;>
    rcases inv.res _ hj with ⟨h4, h5⟩ | ⟨h4, h5, h6⟩ <;> simp only at *
  · exact inv.inj i j h1 h4 (h2.trans h5.symm)
  · exact absurd h2 (h6 i (by omega))
  · exact absurd h5 (h3 j (by omega))
  · omega

/-- C07: two different groups share a cell only if the registry is full (and then it is the
overflow cell). -/
theorem C07_distinct_cells {s : St} (h : Reachable s) {n m : Str} {i : Nat}
    (hn : (n, i) ∈ s.results) (hm : (m, i) ∈ s.results) (hne : n ≠ m) :
    s.count = 250 ∧ i = 1 := by
  have inv := inv_reachable h
  rcases inv.res _ hn with ⟨h1, h2⟩ | ⟨h1, h2, h3⟩ <;>
    rcases inv.res _ hm with ⟨h4, h5⟩ | ⟨h4, h5, h6⟩ <;> simp only at *
  · exact absurd (h2.symm.trans h5) hne
  · exact ⟨h5, h4⟩
  · exact ⟨h2, h1⟩
  · exact ⟨h2, h1⟩

/-- C07: no group is entered twice. -/
theorem C07_no_duplicates {s : St} (h : Reachable s) {i j : Nat} (hi : i < s.count)
    (hj : j < s.count) (hg : s.groups i = s.groups j) : i = j :=
  (inv_reachable h).inj i j hi hj hg

/-- C07: a returned cell is the one of the group asked for, unless the registry is full and
does not contain the group. -/
theorem C07_right_cell {s : St} (h : Reachable s) {n : Str} {i : Nat} (hi : (n, i) ∈ s.results) :
    (i < s.count ∧ s.groups i = n) ∨
      (i = 1 ∧ s.count = 250 ∧ ∀ j, j < 250 → s.groups j ≠ n) :=
  (inv_reachable h).res _ hi

/-- Index of `groups` that a thread is about to read. -/
def Pc.readsGroup : Pc → Option Nat
  | .scan1 _ c i => if i < c then some i else none
  | .scan2 _ c i => if i < c then some i else none
  | .writeStatus _ c => some c
  | .uLoop (.update _ _) c i => if i < c then some i else none
  | _ => none

/-- Index of `groups` that a thread is about to write. -/
def Pc.writesGroup : Pc → Option Nat
  | .writeGroup _ c => some c
  | _ => none

/-- Index of `group_statuses` that a thread is about to write. -/
def Pc.writesStatus : Pc → Option Nat
  | .writeStatus _ c => some c
  | .uLoop _ c i => if i < c then some i else none
  | _ => none

/-- C07/C09 under concurrency: every access is inside the arrays, and the plain (non-atomic)
strings are never written while another thread reads or writes the same element. -/
theorem C07_no_race {s : St} (h : Reachable s) :
    (∀ t i, (s.pc t).readsGroup = some i ∨ (s.pc t).writesGroup = some i ∨
        (s.pc t).writesStatus = some i → i < 250) ∧
    ∀ t t' i, t ≠ t' → (s.pc t).writesGroup = some i →
      (s.pc t').readsGroup ≠ some i ∧ (s.pc t').writesGroup ≠ some i := by
  have inv := inv_reachable h
  have h250 := inv.chigh
  refine ⟨?_, ?_⟩
  · intro t i
    have hp := inv.pcs t
    cases hpc : s.pc t <;> rw [hpc] at hp <;>
      simp only [Pc.readsGroup, Pc.writesGroup, Pc.writesStatus, PcOk, Option.ite_none_right_eq_some,
        Option.some.injEq, reduceCtorEq, or_self, false_or, or_false, false_implies] at hp ⊢
    case uLoop u c k =>
      cases u <;> simp only [Option.ite_none_right_eq_some, Option.some.injEq, reduceCtorEq,
        false_or, or_self] <;> rintro ⟨h1, h2⟩ <;> omega
    all_goals (intro h'; omega)
  · intro t t' i hne hw
    have hp := inv.pcs t
    have hp' := inv.pcs t'
    cases hpc : s.pc t <;> rw [hpc] at hp hw <;> simp only [Pc.writesGroup, reduceCtorEq,
      Option.some.injEq] at hw
    subst hw
    obtain ⟨_, hm, _, hc, _⟩ := hp
    have hm' : s.mutex ≠ some t' := by rw [hm]; simpa using hne
    cases hpc' : s.pc t' <;> rw [hpc'] at hp' <;>
      simp only [Pc.readsGroup, Pc.writesGroup, PcOk] at hp' ⊢ <;>
      first
        | (exact absurd hp'.2.1 hm')
        | (exact absurd hp'.1 hm')
        | (exact absurd hp' hm')
        | (refine ⟨?_, by simp⟩; split <;> simp; omega)
        | simp

/-- C08 under concurrency: whenever nobody is inside the registry's critical section every
registered cell holds the decision for the lists in force. -/
theorem C08_concurrent {s : St} (h : Reachable s) (hm : s.mutex = none) {i : Nat}
    (hi : i < s.count) :
    s.statuses i = true ↔ GroupEnabled s.enabled s.disabled (s.groups i) := by
  rw [← C06_decision, (inv_reachable h).free hm i hi]

/-- C08 under concurrency, at every moment: a cell in use reads the decision under the lists of
the last finished update, or under those of the update in progress. -/
theorem C08_during_update {s : St} {c} (h : Hist s c) {i : Nat} (hi : i < s.count) :
    (s.statuses i = true ↔ GroupEnabled c.1 c.2 (s.groups i)) ∨
      ∃ t u, (s.pc t).up = some u ∧
        (s.statuses i = true ↔ GroupEnabled u.en u.dis (s.groups i)) := by
  rcases h.cell hi with hx | ⟨t, u, h1, h2⟩
  · left; rw [← C06_decision, hx]
  · right; exact ⟨t, u, h1, by rw [← C06_decision, h2]⟩

/-- Every execution has such a record of finished updates. -/
theorem C08_every_execution {s : St} (h : Reachable s) : ∃ c, Hist s c := h.hist

/-- C09 under concurrency. -/
theorem C09_concurrent {s : St} (h : Reachable s) : s.count ≤ 250 := (inv_reachable h).chigh

/-- Non-vacuity: thread 0 registers the group "a" while thread 1 looks up "default". -/
example : ∃ s, Reachable s ∧ (['a'], 3) ∈ s.results ∧ ("default".toList, 0) ∈ s.results := by
  have r := Reachable.init
  have r := r.step (.call (t := 0) (n := ['a']) rfl (by decide))
  have r := r.step (.call (t := 1) (n := "default".toList) rfl (by decide))
  have r := r.step (.scan1Miss (t := 0) rfl (by decide) (by decide))
  have r := r.step (.scan1Miss (t := 0) rfl (by decide) (by decide))
  have r := r.step (.scan1Miss (t := 0) rfl (by decide) (by decide))
  have r := r.step (.scan1End (t := 0) rfl (by decide))
  have r := r.step (.lock (t := 0) rfl rfl)
  have r := r.step (.load2 (t := 0) rfl)
  have r := r.step (.scan2Miss (t := 0) rfl (by decide) (by decide))
  have r := r.step (.scan2Miss (t := 0) rfl (by decide) (by decide))
  have r := r.step (.scan2Miss (t := 0) rfl (by decide) (by decide))
  have r := r.step (.room (t := 0) rfl (by decide) (by decide))
  have r := r.step (.writeGroup (t := 0) rfl)
  have r := r.step (.writeStatus (t := 0) rfl)
  have r := r.step (.scan1Hit (t := 1) rfl (by decide) (by decide))
  have r := r.step (.bump (t := 0) rfl)
  have r := r.step (.ret (t := 0) rfl)
  exact ⟨_, r, List.Mem.head _, List.Mem.tail _ (List.Mem.head _)⟩

end RegConc

end Phosphor
