import Verif.Model.Context
/-
C79: contexts own their buffers.
-/
namespace Phosphor.Ctx

/-- Who can own a buffer. -/
inductive Owner
  | ptr (p : Nat)
  | ctx (c : Nat)
  deriving DecidableEq

/-- What an owner owns. -/
def St.owns (s : St) : Owner → Option Nat
  | .ptr p => s.ptr p
  | .ctx c => s.getBuffer c

/-- The invariant: owned buffers exist, are alive and have one owner; every buffer is owned or was
destroyed; none was destroyed twice. -/
structure Inv (s : St) : Prop where
  made : ∀ o b, s.owns o = some b → b < s.made
  alive : ∀ o b, s.owns o = some b → b ∉ s.destroyed
  one : ∀ o o' b, s.owns o = some b → s.owns o' = some b → o = o'
  all : ∀ b, b < s.made → (∃ o, s.owns o = some b) ∨ b ∈ s.destroyed
  was : ∀ b ∈ s.destroyed, b < s.made
  once : s.destroyed.Nodup

theorem init_inv : Inv St.init := by
  constructor
  · intro o b h; cases o <;> simp [St.init, St.owns, St.getBuffer] at h
  · intro o b h; cases o <;> simp [St.init, St.owns, St.getBuffer] at h
  · intro o o' b h; cases o <;> simp [St.init, St.owns, St.getBuffer] at h
  · intro b h; simp [St.init] at h
  · intro b h; simp [St.init] at h
  · simp [St.init]

theorem mem_free {l : List Nat} {o : Option Nat} {b : Nat} : b ∈ free l o ↔ o = some b ∨ b ∈ l := by
  cases o with
  | none => simp [free]
  | some c =>
    simp only [free, List.mem_cons, Option.some.injEq]
    constructor
    · rintro (h | h)
      · exact Or.inl h.symm
      · exact Or.inr h
    · rintro (h | h)
      · exact Or.inl h.symm
      · exact Or.inr h

theorem free_nodup {s : St} (h : Inv s) (o : Owner) : (free s.destroyed (s.owns o)).Nodup := by
  cases ho : s.owns o with
  | none => exact h.once
  | some b => exact List.nodup_cons.2 ⟨h.alive o b ho, h.once⟩

/-- A step after which the owners own what they did, except that `dst` has given up what it had and
now owns what `src` had, and `src` nothing. -/
theorem transfer_inv {s s' : St} (h : Inv s) (src dst : Owner) (hm : s'.made = s.made)
    (hne : src ≠ dst) (h1 : s'.owns dst = s.owns src) (h2 : s'.owns src = none)
    (h3 : ∀ o, o ≠ src → o ≠ dst → s'.owns o = s.owns o)
    (h4 : s'.destroyed = free s.destroyed (s.owns dst)) : Inv s' := by
  -- every owner afterwards owns what some owner other than `dst` owned before
  have back : ∀ o b, s'.owns o = some b → ∃ o', o' ≠ dst ∧ s.owns o' = some b ∧
      (o = dst ∧ o' = src ∨ o ≠ dst ∧ o ≠ src ∧ o' = o) := by
    intro o b ho
    by_cases e1 : o = dst
    · subst e1; exact ⟨src, hne, by rw [← h1]; exact ho, Or.inl ⟨rfl, rfl⟩⟩
    · by_cases e2 : o = src
      · subst e2; rw [h2] at ho; cases ho
      · exact ⟨o, e1, by rw [← h3 o e2 e1]; exact ho, Or.inr ⟨e1, e2, rfl⟩⟩
  constructor
  · intro o b ho
    obtain ⟨o', -, h', -⟩ := back o b ho
    rw [hm]; exact h.made o' b h'
  · intro o b ho hd
    obtain ⟨o', h5, h', -⟩ := back o b ho
    rw [h4, mem_free] at hd
    rcases hd with hd | hd
    · exact h5 (h.one o' dst b h' hd)
    · exact h.alive o' b h' hd
  · intro o o' b ho ho'
    obtain ⟨p, -, hp, hc⟩ := back o b ho
    obtain ⟨p', -, hp', hc'⟩ := back o' b ho'
    have hpp := h.one p p' b hp hp'
    rcases hc with ⟨e1, e2⟩ | ⟨e1, e2, e3⟩ <;> rcases hc' with ⟨f1, f2⟩ | ⟨f1, f2, f3⟩
    · rw [e1, f1]
    · exact absurd (by rw [← f3, ← hpp, e2]) f2
    · exact absurd (by rw [← e3, hpp, f2]) e2
    · rw [← e3, ← f3, hpp]
  · intro b hb
    rw [hm] at hb
    rcases h.all b hb with ⟨o, ho⟩ | hd
    · by_cases e1 : o = dst
      · subst e1; right; rw [h4, mem_free]; exact Or.inl ho
      · by_cases e2 : o = src
        · subst e2; left; exact ⟨dst, by rw [h1]; exact ho⟩
        · left; exact ⟨o, by rw [h3 o e2 e1]; exact ho⟩
    · right; rw [h4, mem_free]; exact Or.inr hd
  · intro b hb
    rw [h4, mem_free] at hb
    rw [hm]
    rcases hb with hb | hb
    · exact h.made dst b hb
    · exact h.was b hb
  · rw [h4]; exact free_nodup h dst

/-- A step after which `dst` has given up what it had and owns nothing. -/
theorem release_inv {s s' : St} (h : Inv s) (dst : Owner) (hm : s'.made = s.made)
    (h1 : s'.owns dst = none) (h3 : ∀ o, o ≠ dst → s'.owns o = s.owns o)
    (h4 : s'.destroyed = free s.destroyed (s.owns dst)) : Inv s' := by
  have back : ∀ o b, s'.owns o = some b → o ≠ dst ∧ s.owns o = some b := by
    intro o b ho
    have e : o ≠ dst := by rintro rfl; rw [h1] at ho; cases ho
    exact ⟨e, by rw [← h3 o e]; exact ho⟩
  constructor
  · intro o b ho; rw [hm]; exact h.made o b (back o b ho).2
  · intro o b ho hd
    obtain ⟨e, ho⟩ := back o b ho
    rw [h4, mem_free] at hd
    rcases hd with hd | hd
    · exact e (h.one o dst b ho hd)
    · exact h.alive o b ho hd
  · intro o o' b ho ho'
    exact h.one o o' b (back o b ho).2 (back o' b ho').2
  · intro b hb
    rw [hm] at hb
    rcases h.all b hb with ⟨o, ho⟩ | hd
    · by_cases e : o = dst
      · subst e; right; rw [h4, mem_free]; exact Or.inl ho
      · left; exact ⟨o, by rw [h3 o e]; exact ho⟩
    · right; rw [h4, mem_free]; exact Or.inr hd
  · intro b hb
    rw [h4, mem_free] at hb
    rw [hm]
    rcases hb with hb | hb
    · exact h.made dst b hb
    · exact h.was b hb
  · rw [h4]; exact free_nodup h dst

/-- A step that changes neither owners nor buffers. -/
theorem same_inv {s s' : St} (h : Inv s) (hm : s'.made = s.made) (h1 : ∀ o, s'.owns o = s.owns o)
    (h2 : s'.destroyed = s.destroyed) : Inv s' := by
  constructor
  · intro o b ho; rw [h1] at ho; rw [hm]; exact h.made o b ho
  · intro o b ho; rw [h1] at ho; rw [h2]; exact h.alive o b ho
  · intro o o' b ho ho'; rw [h1] at ho ho'; exact h.one o o' b ho ho'
  · intro b hb
    rw [hm] at hb
    rcases h.all b hb with ⟨o, ho⟩ | hd
    · left; exact ⟨o, by rw [h1]; exact ho⟩
    · right; rw [h2]; exact hd
  · intro b hb; rw [h2] at hb; rw [hm]; exact h.was b hb
  · rw [h2]; exact h.once

/-- A step that gives `dst` a new buffer. -/
theorem make_inv {s s' : St} (h : Inv s) (dst : Owner) (hm : s'.made = s.made + 1)
    (h1 : s'.owns dst = some s.made) (h3 : ∀ o, o ≠ dst → s'.owns o = s.owns o)
    (h4 : s'.destroyed = free s.destroyed (s.owns dst)) : Inv s' := by
  have back : ∀ o b, s'.owns o = some b → (o = dst ∧ b = s.made) ∨ (o ≠ dst ∧ s.owns o = some b) := by
    intro o b ho
    by_cases e : o = dst
    · subst e; rw [h1] at ho; exact Or.inl ⟨rfl, by cases ho; rfl⟩
    · exact Or.inr ⟨e, by rw [← h3 o e]; exact ho⟩
  constructor
  · intro o b ho
    rw [hm]
    rcases back o b ho with ⟨-, rfl⟩ | ⟨-, ho⟩
    · omega
    · have := h.made o b ho; omega
  · intro o b ho hd
    rw [h4, mem_free] at hd
    rcases back o b ho with ⟨-, rfl⟩ | ⟨e, ho⟩
    · rcases hd with hd | hd
      · exact Nat.lt_irrefl _ (h.made dst _ hd)
      · exact Nat.lt_irrefl _ (h.was _ hd)
    · rcases hd with hd | hd
      · exact e (h.one o dst b ho hd)
      · exact h.alive o b ho hd
  · intro o o' b ho ho'
    rcases back o b ho with ⟨e, rfl⟩ | ⟨e, ho⟩ <;> rcases back o' _ ho' with ⟨f, g⟩ | ⟨f, ho'⟩
    · rw [e, f]
    · exact absurd (h.made o' _ ho') (Nat.lt_irrefl _)
    · subst g; exact absurd (h.made o _ ho) (Nat.lt_irrefl _)
    · exact h.one o o' b ho ho'
  · intro b hb
    rw [hm] at hb
    by_cases hbm : b = s.made
    · left; exact ⟨dst, by rw [h1, hbm]⟩
    · rcases h.all b (by omega) with ⟨o, ho⟩ | hd
      · by_cases e : o = dst
        · subst e; right; rw [h4, mem_free]; exact Or.inl ho
        · left; exact ⟨o, by rw [h3 o e]; exact ho⟩
      · right; rw [h4, mem_free]; exact Or.inr hd
  · intro b hb
    rw [h4, mem_free] at hb
    rw [hm]
    rcases hb with hb | hb
    · have := h.made dst b hb; omega
    · have := h.was b hb; omega
  · rw [h4]; exact free_nodup h dst

theorem owns_ptr_ne {s : St} {p : Nat} {f : Option Nat} {o : Owner} (h : o ≠ .ptr p) :
    ({ s with ptr := setf s.ptr p f } : St).owns o = s.owns o := by
  cases o with
  | ptr q => exact setf_ne _ _ (by rintro rfl; exact h rfl)
  | ctx c => rfl

theorem owns_ctx_ne {s : St} {c : Nat} {f : Option Obj} {o : Owner} (h : o ≠ .ctx c) :
    ({ s with ctx := setf s.ctx c f } : St).owns o = s.owns o := by
  cases o with
  | ptr q => rfl
  | ctx d =>
    simp only [St.owns, St.getBuffer]
    rw [setf_ne _ _ (by rintro rfl; exact h rfl)]

theorem step_inv {s s' : St} (h : Inv s) (o : Op) (hs : s.step o = some s') : Inv s' := by
  have construct : ∀ c p names, s.ctx c = none →
      Inv { s with ctx := setf s.ctx c (some ⟨s.ptr p, names⟩), ptr := setf s.ptr p none } := by
    intro c p names hc
    refine transfer_inv h (.ptr p) (.ctx c) rfl (by simp) ?_ ?_ ?_ ?_
    · simp [St.owns, St.getBuffer]
    · simp [St.owns]
    · intro o h1 h2
      rw [← owns_ctx_ne (s := s) (f := some ⟨s.ptr p, names⟩) h2]
      exact owns_ptr_ne (s := { s with ctx := setf s.ctx c (some ⟨s.ptr p, names⟩) }) h1
    · simp [St.owns, St.getBuffer, hc, free]
  cases o with
  | make p =>
    cases hs
    refine make_inv h (.ptr p) rfl (by simp [St.owns]) (fun o ho => ?_) rfl
    exact owns_ptr_ne (s := s) ho
  | reset p =>
    cases hs
    refine release_inv h (.ptr p) rfl (by simp [St.owns]) (fun o ho => ?_) rfl
    exact owns_ptr_ne (s := s) ho
  | construct c p =>
    simp only [St.step] at hs
    cases hc : s.ctx c with
    | some o => simp [hc] at hs
    | none => simp only [hc] at hs; cases hs; exact construct c p [] hc
  | constructNames c p names =>
    simp only [St.step] at hs
    cases hc : s.ctx c with
    | some o => simp [hc] at hs
    | none => simp only [hc] at hs; cases hs; exact construct c p names hc
  | moveConstruct c d =>
    simp only [St.step] at hs
    cases hc : s.ctx c with
    | some o => simp [hc] at hs
    | none =>
      cases hd : s.ctx d with
      | none => simp [hc, hd] at hs
      | some q =>
        simp only [hc, hd] at hs
        cases hs
        have hne : d ≠ c := by rintro rfl; rw [hc] at hd; cases hd
        refine transfer_inv h (.ctx d) (.ctx c) rfl (by simpa using hne) ?_ ?_ ?_ ?_
        · simp [St.owns, St.getBuffer, hd]
        · simp only [St.owns, St.getBuffer]
          rw [setf_ne _ _ hne]
          simp
        · intro o h1 h2
          rw [← owns_ctx_ne (s := s) (f := some ⟨none, []⟩) h1]
          exact owns_ctx_ne (s := { s with ctx := setf s.ctx d (some ⟨none, []⟩) }) h2
        · simp [St.owns, St.getBuffer, hc, free]
  | moveAssign c d rest =>
    simp only [St.step] at hs
    cases hc : s.ctx c with
    | none => simp [hc] at hs
    | some o =>
      cases hd : s.ctx d with
      | none => simp [hc, hd] at hs
      | some q =>
        simp only [hc, hd] at hs
        by_cases hcd : c = d
        · rw [if_pos hcd] at hs
          cases hs
          refine same_inv h rfl (fun w => ?_) rfl
          by_cases e : w = .ctx c
          · subst e; simp [St.owns, St.getBuffer, hc]
          · exact owns_ctx_ne e
        · rw [if_neg hcd] at hs
          cases hs
          have hne : d ≠ c := fun e => hcd e.symm
          refine transfer_inv h (.ctx d) (.ctx c) rfl (by simpa using hne) ?_ ?_ ?_ ?_
          · simp [St.owns, St.getBuffer, hd]
          · simp only [St.owns, St.getBuffer]
            rw [setf_ne _ _ hne]
            simp
          · intro w h1 h2
            rw [← owns_ctx_ne (s := s) (f := some ⟨none, rest⟩) h1]
            exact owns_ctx_ne (s := { s with ctx := setf s.ctx d (some ⟨none, rest⟩) }) h2
          · simp [St.owns, St.getBuffer, hc]
  | addThreadName c id name =>
    simp only [St.step] at hs
    cases hc : s.ctx c with
    | none => simp [hc] at hs
    | some o =>
      simp only [hc] at hs
      cases hs
      refine same_inv h rfl (fun w => ?_) rfl
      by_cases e : w = .ctx c
      · subst e; simp [St.owns, St.getBuffer, hc]
      · exact owns_ctx_ne e
  | destroy c =>
    simp only [St.step] at hs
    cases hc : s.ctx c with
    | none => simp [hc] at hs
    | some o =>
      simp only [hc] at hs
      cases hs
      refine release_inv h (.ctx c) rfl (by simp [St.owns, St.getBuffer]) (fun w hw => ?_) ?_
      · exact owns_ctx_ne (s := s) hw
      · simp [St.owns, St.getBuffer, hc]

theorem run_inv {s s' : St} (h : Inv s) (os : List Op) (hs : s.run os = some s') : Inv s' := by
  induction os generalizing s with
  | nil => cases hs; exact h
  | cons o os ih =>
    rw [St.run] at hs
    cases ho : s.step o with
    | none => simp [ho] at hs
    | some s1 => simp only [ho] at hs; exact ih (step_inv h o ho) hs

/-- C79: whatever a program does with contexts, every buffer ever made has exactly one owner, a
pointer or a context, or was destroyed; never both, and never twice. -/
theorem C79_owner (os : List Op) (s : St) (h : St.init.run os = some s) (b : Nat) (hb : b < s.made) :
    ((∃ o, s.owns o = some b ∧ ∀ o', s.owns o' = some b → o' = o) ∧ s.destroyed.count b = 0) ∨
    ((∀ o, s.owns o ≠ some b) ∧ s.destroyed.count b = 1) := by
  have hi := run_inv init_inv os h
  rcases hi.all b hb with ⟨o, ho⟩ | hd
  · exact Or.inl ⟨⟨o, ho, fun o' h' => hi.one o' o b h' ho⟩,
      List.count_eq_zero.2 (hi.alive o b ho)⟩
  · exact Or.inr ⟨fun o ho => hi.alive o b ho hd,
      by rw [hi.once.count, if_pos hd]⟩

/-- C79: moving a context moves its buffer and its thread names together and leaves the source
without buffer; what the target had is destroyed. -/
theorem C79_move (s s' : St) (c d : Nat) (rest : List (Nat × Str)) (o q : Obj)
    (hc : s.ctx c = some o) (hd : s.ctx d = some q) (hne : c ≠ d)
    (hs : s.step (.moveAssign c d rest) = some s') :
    s'.ctx c = some q ∧ s'.getBuffer d = none ∧
      (∀ b, o.buffer = some b → b ∈ s'.destroyed) ∧
      (∀ e, e ≠ c → e ≠ d → s'.ctx e = s.ctx e) := by
  simp only [St.step, hc, hd, if_neg hne] at hs
  cases hs
  refine ⟨by simp, ?_, ?_, ?_⟩
  · simp only [St.getBuffer]
    rw [setf_ne _ _ (fun e => hne e.symm)]
    simp
  · intro b hb; rw [mem_free]; exact Or.inl hb
  · intro e h1 h2
    simp only
    rw [setf_ne _ _ h1, setf_ne _ _ h2]

/-- C79: moving a context into itself keeps its buffer. (Its thread names are then whatever the
standard library leaves.) -/
theorem C79_self (s s' : St) (c : Nat) (rest : List (Nat × Str)) (o : Obj) (hc : s.ctx c = some o)
    (hs : s.step (.moveAssign c c rest) = some s') :
    s'.getBuffer c = o.buffer ∧ s'.destroyed = s.destroyed := by
  simp only [St.step, hc, if_true] at hs
  cases hs
  simp [St.getBuffer]

/-- The first entry of a map for a key. -/
def find (m : List (Nat × Str)) (id : Nat) : Option Str := (m.find? (·.1 == id)).map (·.2)

/-- C79: a thread name once in a context is never replaced by `addThreadName`; a new one is added, and
no other changes. -/
theorem C79_names (m : List (Nat × Str)) (id : Nat) (name : Str) :
    find (emplace m id name) id = some ((find m id).getD name) ∧
      ∀ j, j ≠ id → find (emplace m id name) j = find m j := by
  have hany : m.any (·.1 == id) = (find m id).isSome := by
    induction m with
    | nil => rfl
    | cons a m ih =>
      unfold find at ih ⊢
      simp only [List.any_cons, List.find?_cons]
      by_cases h : a.1 = id
      · simp [h]
      · have hb : (a.1 == id) = false := by simpa using h
        simp only [hb, Bool.false_or]
        exact ih
  unfold emplace
  rw [hany]
  cases hf : find m id with
  | some n =>
    simp only [Option.isSome_some, if_true, Option.getD_some]
    exact ⟨hf, fun _ _ => by trivial⟩
  | none =>
    simp only [Option.isSome_none, Bool.false_eq_true, if_false, Option.getD_none]
    have hnone : m.find? (·.1 == id) = none := by
      unfold find at hf
      simpa using hf
    constructor
    · unfold find
      rw [List.find?_append, hnone]
      simp
    · intro j hj
      unfold find
      rw [List.find?_append]
      have hb : ((id == j) = false) := by simpa using fun e => hj e.symm
      cases m.find? (·.1 == j) with
      | some a => rfl
      | none => simp [hb]

/-- C79, exporting: as long as the context of an exporter is neither moved nor destroyed, reading is
defined. -/
theorem C79_export (os os' : List Op) (s s' : St) (h : St.init.run os = some s) (x : Exporter) (c : Nat)
    (hx : s.exporter c = .ok x) (h' : s.run os' = some s')
    (hq : ∀ o ∈ os', (∀ d, o ≠ .moveConstruct d c) ∧ (∀ d r, o ≠ .moveAssign d c r) ∧
      (∀ d r, o ≠ .moveAssign c d r) ∧ o ≠ .destroy c) : s'.read x = .ok () := by
  have hi := run_inv init_inv os h
  have hget : s.getBuffer c = some x.buffer ∧ x.context = c := by
    unfold St.exporter at hx
    cases hb : s.getBuffer c with
    | none => simp [hb] at hx
    | some b => simp only [hb] at hx; cases hx; exact ⟨rfl, rfl⟩
  obtain ⟨hget, rfl⟩ := hget
  have key : ∀ os' s, Inv s → s.getBuffer x.context = some x.buffer → s.run os' = some s' →
      (∀ o ∈ os', (∀ d, o ≠ .moveConstruct d x.context) ∧ (∀ d r, o ≠ .moveAssign d x.context r) ∧
        (∀ d r, o ≠ .moveAssign x.context d r) ∧ o ≠ .destroy x.context) →
      Inv s' ∧ s'.getBuffer x.context = some x.buffer := by
    intro os'
    induction os' with
    | nil => intro s h1 h2 h3 _; cases h3; exact ⟨h1, h2⟩
    | cons o os' ih =>
      intro s h1 h2 h3 h4
      rw [St.run] at h3
      cases ho : s.step o with
      | none => simp [ho] at h3
      | some s1 =>
        simp only [ho] at h3
        refine ih s1 (step_inv h1 o ho) ?_ h3 (fun o ho => h4 o (List.mem_cons_of_mem _ ho))
        obtain ⟨q1, q2, q3, q4⟩ := h4 o List.mem_cons_self
        -- the context of the exporter is not touched
        have hsome : ∃ w, s.ctx x.context = some w := by
          unfold St.getBuffer at h2
          cases hw : s.ctx x.context with
          | none => simp [hw] at h2
          | some w => exact ⟨w, rfl⟩
        obtain ⟨w, hw⟩ := hsome
        cases o with
        | make p => cases ho; exact h2
        | reset p => cases ho; exact h2
        | construct c p =>
          simp only [St.step] at ho
          cases hc : s.ctx c with
          | some v => simp [hc] at ho
          | none =>
            simp only [hc] at ho; cases ho
            have e : x.context ≠ c := by rintro e; rw [e, hc] at hw; cases hw
            simp only [St.getBuffer]; rw [setf_ne _ _ e]; exact h2
        | constructNames c p names =>
          simp only [St.step] at ho
          cases hc : s.ctx c with
          | some v => simp [hc] at ho
          | none =>
            simp only [hc] at ho; cases ho
            have e : x.context ≠ c := by rintro e; rw [e, hc] at hw; cases hw
            simp only [St.getBuffer]; rw [setf_ne _ _ e]; exact h2
        | moveConstruct c d =>
          have ed : x.context ≠ d := by rintro e; exact q1 c (by rw [e])
          simp only [St.step] at ho
          cases hc : s.ctx c with
          | some v => simp [hc] at ho
          | none =>
            cases hd : s.ctx d with
            | none => simp [hc, hd] at ho
            | some v =>
              simp only [hc, hd] at ho; cases ho
              have e : x.context ≠ c := by rintro e; rw [e, hc] at hw; cases hw
              simp only [St.getBuffer]; rw [setf_ne _ _ e, setf_ne _ _ ed]; exact h2
        | moveAssign c d rest =>
          have ed : x.context ≠ d := by rintro e; exact q2 c rest (by rw [e])
          have ec : x.context ≠ c := by rintro e; exact q3 d rest (by rw [e])
          simp only [St.step] at ho
          cases hc : s.ctx c with
          | none => simp [hc] at ho
          | some v =>
            cases hd : s.ctx d with
            | none => simp [hc, hd] at ho
            | some v' =>
              simp only [hc, hd] at ho
              split at ho
              · cases ho; simp only [St.getBuffer]; rw [setf_ne _ _ ec]; exact h2
              · cases ho; simp only [St.getBuffer]; rw [setf_ne _ _ ec, setf_ne _ _ ed]; exact h2
        | addThreadName c id name =>
          simp only [St.step] at ho
          cases hc : s.ctx c with
          | none => simp [hc] at ho
          | some v =>
            simp only [hc] at ho; cases ho
            simp only [St.getBuffer]
            by_cases e : x.context = c
            · rw [e, setf_self]
              unfold St.getBuffer at h2
              rw [e, hc] at h2
              exact h2
            · rw [setf_ne _ _ e]; exact h2
        | destroy c =>
          have e : x.context ≠ c := by rintro e; exact q4 (by rw [e])
          simp only [St.step] at ho
          cases hc : s.ctx c with
          | none => simp [hc] at ho
          | some v => simp only [hc] at ho; cases ho; simp only [St.getBuffer]; rw [setf_ne _ _ e]; exact h2
  obtain ⟨hi', hg⟩ := key os' s hi hget h' hq
  unfold St.read
  rw [hg]
  simp only
  rw [if_pos]
  exact ⟨by trivial, hi'.alive (.ctx x.context) _ hg⟩

/-- C79 with the condition violated: an exporter whose context was moved away reads through a null
pointer, though the buffer lives on in the new context. -/
theorem C79_moved_away :
    ∃ s x s', St.init.run [.make 0, .construct 1 0] = some s ∧ s.exporter 1 = .ok x ∧
      s.run [.moveConstruct 2 1] = some s' ∧ s'.read x = .ub ∧ s'.getBuffer 2 = some x.buffer ∧
      s'.destroyed = [] :=
  ⟨_, _, _, rfl, rfl, rfl, rfl, rfl, rfl⟩

/-- Two contexts, one moved over the other: buffer 0 is destroyed then, buffer 1 with the context. -/
example : ∃ s, St.init.run [.make 0, .constructNames 1 0 [(7, "a".toList)], .make 0, .construct 2 0,
      .addThreadName 2 8 "b".toList, .addThreadName 2 8 "c".toList, .moveAssign 1 2 [], .destroy 2] =
      some s ∧ s.destroyed = [0] ∧ s.getBuffer 1 = some 1 ∧
      (s.ctx 1).map (·.names) = some [(8, "b".toList)] :=
  ⟨_, rfl, rfl, rfl, rfl⟩

end Phosphor.Ctx
