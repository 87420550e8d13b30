import Verif.Model.ThreadId
/-
C72: thread ids.
-/
namespace Phosphor.Tid

/-! ### C72 Every thread has its own id -/

/-- C72, full statement: the id a thread gets is its system id. -/
def C72_own : Prop :=
  ∀ (id : Nat) (l : List (Nat × Nat)) (o o' : Os) (t r : Nat), 0 < id → id < 2 ^ 32 → Run (Os.start id) l o →
    Step o (some (t, r)) o' → r = o.current t

/-- The state of the system is sound. -/
structure Inv (o : Os) : Prop where
  ids : ∀ t p i, o.live t = some (p, i) → 0 < i ∧ i < 2 ^ 32
  uniq : ∀ t u p q i, o.live t = some (p, i) → o.live u = some (q, i) → t = u
  born : ∀ t x, o.live t = some x → o.born t ≠ none
  own : ∀ t p i, o.live t = some (p, i) → o.born t = some .created → o.cache t = 0 ∨ o.cache t = i
  fresh : ∀ t, o.born t = none → o.cache t = 0

theorem Inv.start {id : Nat} (h0 : 0 < id) (h : id < 2 ^ 32) : Inv (Os.start id) := by
  refine ⟨?_, ?_, ?_, ?_, fun _ _ => rfl⟩
  · intro t p i hl
    simp only [Os.start] at hl
    split at hl <;> cases hl
    exact ⟨h0, h⟩
  · intro t u p q i ht hu
    simp only [Os.start] at ht hu
    split at ht <;> cases ht
    split at hu <;> cases hu
    simp_all
  · intro t x hl
    simp only [Os.start] at hl ⊢
    split at hl <;> simp_all
  · intro t p i _ _; exact Or.inl rfl

theorem cached_eq (o : Os) (t : Nat) :
    (o.cached t).1 = (if o.cache t = 0 then o.current t else o.cache t) ∧
    (o.cached t).2 = { o with cache := setf o.cache t (o.cached t).1 } := by
  unfold Os.cached
  by_cases h : o.cache t = 0
  · simp [h]
  · simp only [h, if_false]
    refine ⟨trivial, ?_⟩
    have : setf o.cache t (o.cache t) = o.cache := by
      funext u; unfold setf; split
      · rename_i e; rw [e]
      · rfl
    rw [this]

theorem current_of {o : Os} {t p i : Nat} (h : o.live t = some (p, i)) : o.current t = i := by
  simp [Os.current, h]

theorem Inv.make {o : Os} (h : Inv o) {n q k : Nat} {c : Nat} {b : Origin} (hn : o.born n = none) (h0 : 0 < k)
    (hk : k < 2 ^ 32) (hu : o.unused k) (hc : b = .created → c = 0) :
    Inv { live := setf o.live n (some (q, k)), born := setf o.born n (some b), cache := setf o.cache n c } := by
  refine ⟨?_, ?_, ?_, ?_, ?_⟩
  · intro t p i hl
    by_cases ht : t = n
    · subst ht; simp only [setf_self] at hl; cases hl; exact ⟨h0, hk⟩
    · simp only [setf_ne _ _ ht] at hl; exact h.ids t p i hl
  · intro t u p q' i ht hu'
    by_cases e1 : t = n <;> by_cases e2 : u = n
    · rw [e1, e2]
    · subst e1
      simp only [setf_self] at ht; cases ht
      simp only [setf_ne _ _ e2] at hu'
      exact absurd rfl (hu u _ _ hu')
    · subst e2
      simp only [setf_self] at hu'; cases hu'
      simp only [setf_ne _ _ e1] at ht
      exact absurd rfl (hu t _ _ ht)
    · simp only [setf_ne _ _ e1] at ht
      simp only [setf_ne _ _ e2] at hu'
      exact h.uniq t u p q' i ht hu'
  · intro t x hl
    by_cases ht : t = n
    · subst ht; simp
    · simp only [setf_ne _ _ ht] at hl ⊢; exact h.born t x hl
  · intro t p i hl hb
    by_cases ht : t = n
    · subst ht
      simp only [setf_self] at hb ⊢
      left; exact hc (by injection hb)
    · simp only [setf_ne _ _ ht] at hl hb ⊢; exact h.own t p i hl hb
  · intro t hb
    by_cases ht : t = n
    · subst ht; simp only [setf_self] at hb; cases hb
    · simp only [setf_ne _ _ ht] at hb ⊢; exact h.fresh t hb

theorem Inv.step {o o' : Os} {r : Option (Nat × Nat)} (h : Inv o) (hs : Step o r o') : Inv o' := by
  cases hs with
  | create hl hn h0 hk hu => exact h.make hn h0 hk hu (fun _ => rfl)
  | fork hl hn h0 hk hu => exact h.make hn h0 hk hu (fun e => by cases e)
  | exit hl =>
    rename_i t0 p0 i0
    have keep : ∀ t x, setf o.live t0 none t = some x → o.live t = some x := by
      intro t x hx
      by_cases ht : t = t0
      · subst ht; rw [setf_self] at hx; cases hx
      · rw [setf_ne _ _ ht] at hx; exact hx
    exact ⟨fun t p i hx => h.ids t p i (keep t _ hx),
      fun t u p q i hx hy => h.uniq t u p q i (keep t _ hx) (keep u _ hy),
      fun t x hx => h.born t x (keep t x hx), fun t p i hx => h.own t p i (keep t _ hx), h.fresh⟩
  | cached hl =>
    rename_i t0 p0 i0
    rw [(cached_eq o t0).2, (cached_eq o t0).1]
    refine ⟨h.ids, h.uniq, h.born, ?_, ?_⟩
    · intro t p i hx hb
      by_cases ht : t = t0
      · subst ht
        have hx : o.live t = some (p, i) := hx
        show setf o.cache t _ t = 0 ∨ setf o.cache t _ t = i
        rw [setf_self]
        have := h.own t p i hx hb
        split
        · right; exact current_of hx
        · exact this
      · show setf o.cache t0 _ t = 0 ∨ setf o.cache t0 _ t = i
        rw [setf_ne _ _ ht]; exact h.own t p i hx hb
    · intro t hb
      have ht : t ≠ t0 := by intro e; subst e; exact h.born t _ hl hb
      show setf o.cache t0 _ t = 0
      rw [setf_ne _ _ ht]; exact h.fresh t hb

theorem Inv.run {o o' : Os} {l : List (Nat × Nat)} (h : Inv o) (hr : Run o l o') : Inv o' := by
  induction hr with
  | refl => exact h
  | step _ hs ih => exact ih.step hs

/-- C72 for the threads that were not made by `fork` (missing: those): in every execution, with
forks or without, with ids reused or not, the cached id of a thread is its system id. -/
theorem C72_own_partial {id : Nat} (h0 : 0 < id) (h1 : id < 2 ^ 32) {l : List (Nat × Nat)} {o o' : Os} {t r : Nat}
    (hr : Run (Os.start id) l o) (hs : Step o (some (t, r)) o') (hb : o.born t = some .created) :
    r = o.current t ∧ 0 < r ∧ r < 2 ^ 32 := by
  have h := (Inv.start h0 h1).run hr
  cases hs with
  | cached hl =>
    have hc := current_of hl
    have : (o.cached t).1 = o.current t := by
      rw [(cached_eq o t).1]
      split
      · rfl
      · rename_i hne
        rw [hc]
        exact (h.own t _ _ hl hb).resolve_left hne
    rw [this, hc]
    exact ⟨rfl, h.ids t _ _ hl⟩

theorem live_of {o o' : Os} {t r : Nat} (h : Step o (some (t, r)) o') : ∃ p i, o.live t = some (p, i) := by
  generalize hx : some (t, r) = x at h
  cases h <;> cases hx
  exact ⟨_, _, ‹_›⟩

/-- C72: threads that are alive at the same time and not made by `fork` have different ids, in
whichever process they are. -/
theorem C72_distinct_partial {id : Nat} (h0 : 0 < id) (h1 : id < 2 ^ 32) {l : List (Nat × Nat)} {o o1 o2 : Os}
    {t u r : Nat} (hr : Run (Os.start id) l o) (ht : Step o (some (t, r)) o1) (hu : Step o (some (u, r)) o2)
    (hbt : o.born t = some .created) (hbu : o.born u = some .created) : t = u := by
  have h := (Inv.start h0 h1).run hr
  have e1 := (C72_own_partial h0 h1 hr ht hbt).1
  have e2 := (C72_own_partial h0 h1 hr hu hbu).1
  obtain ⟨p, i, hlt⟩ := live_of ht
  obtain ⟨q, j, hlu⟩ := live_of hu
  rw [current_of hlt] at e1
  rw [current_of hlu, e1] at e2
  subst e2
  exact h.uniq t u _ _ _ hlt hlu

theorem cache_keep {o o' : Os} {r : Option (Nat × Nat)} (h : Inv o) (hs : Step o r o') {t : Nat} (hc : o.cache t ≠ 0) :
    o'.cache t = o.cache t := by
  have hb : o.born t ≠ none := fun e => hc (h.fresh t e)
  cases hs with
  | create hl hn => exact setf_ne _ _ (fun e => hb (by rw [e]; exact hn))
  | fork hl hn => exact setf_ne _ _ (fun e => hb (by rw [e]; exact hn))
  | exit hl => rfl
  | cached hl =>
    rename_i t0 p0 i0
    rw [(cached_eq o t0).2, (cached_eq o t0).1]
    by_cases ht : t = t0
    · subst ht; show setf o.cache t _ t = _; rw [setf_self, if_neg hc]
    · exact setf_ne _ _ ht

theorem cached_stays {id : Nat} (h0 : 0 < id) (h1 : id < 2 ^ 32) {l : List (Nat × Nat)} {o : Os}
    (hr : Run (Os.start id) l o) : ∀ t r, (t, r) ∈ l → o.cache t = r ∧ r ≠ 0 := by
  generalize hs0 : Os.start id = s0 at hr
  induction hr with
  | refl => intro t r hm; cases hm
  | @step l o _ o' hr hs ih =>
    subst hs0
    have hinv := (Inv.start h0 h1).run hr

    intro t r hm
    rcases List.mem_append.1 hm with hm | hm
    · obtain ⟨e, hne⟩ := ih t r hm
      rw [cache_keep hinv hs (by rw [e]; exact hne)]
      exact ⟨e, hne⟩
    · cases hs with
      | create => cases hm
      | fork => cases hm
      | exit => cases hm
      | cached hl =>
        simp only [Option.toList, List.mem_singleton] at hm
        cases hm
        rw [(cached_eq o t).2]
        refine ⟨setf_self _ _ _, ?_⟩
        rw [(cached_eq o t).1]
        split
        · rw [current_of hl]; have := (hinv.ids t _ _ hl).1; omega
        · assumption

/-- C72: the id of a thread never changes and is never zero. -/
theorem C72_stable {id : Nat} (h0 : 0 < id) (h1 : id < 2 ^ 32) {l : List (Nat × Nat)} {o : Os}
    (hr : Run (Os.start id) l o) {t r r' : Nat} (h : (t, r) ∈ l) (h' : (t, r') ∈ l) : r = r' ∧ r ≠ 0 := by
  obtain ⟨e, hne⟩ := cached_stays h0 h1 hr t r h
  obtain ⟨e', _⟩ := cached_stays h0 h1 hr t r' h'
  exact ⟨by rw [← e, e'], hne⟩

/-- C72: what a thread made by `fork` gets: if its parent had asked for its id, the id of the
parent, which is not its own while the parent's is right; otherwise its own. -/
theorem C72_fork {id : Nat} (h0 : 0 < id) (h1 : id < 2 ^ 32) {l : List (Nat × Nat)} {o o' : Os} {t p i n q k : Nat}
    (hr : Run (Os.start id) l o) (hl : o.live t = some (p, i))
    (hn : o.born n = none) (hk0 : 0 < k) (hk : k < 2 ^ 32) (hu : o.unused k)
    (ho : o' = { live := setf o.live n (some (q, k)), born := setf o.born n (some (.forked t)),
                 cache := setf o.cache n (o.cache t) }) :
    Step o none o' ∧ o'.current n = k ∧
    (∀ r, (t, r) ∈ l → (o'.cached n).1 = r ∧ (r = i → r ≠ k)) ∧
    (o.cache t = 0 → (o'.cached n).1 = k) := by
  subst ho
  have hcur : Os.current { live := setf o.live n (some (q, k)), born := setf o.born n (some (.forked t)),
                           cache := setf o.cache n (o.cache t) } n = k := by
    simp [Os.current]
  refine ⟨.fork hl hn hk0 hk hu, hcur, ?_, ?_⟩
  · intro r hm
    obtain ⟨e, hne⟩ := cached_stays h0 h1 hr t r hm
    refine ⟨?_, fun e1 e2 => ?_⟩
    · rw [(cached_eq _ n).1]
      show (if setf o.cache n (o.cache t) n = 0 then _ else setf o.cache n (o.cache t) n) = r
      rw [setf_self, e, if_neg hne]
    · exact hu t p i hl (by rw [← e1, e2])
  · intro hz
    rw [(cached_eq _ n).1]
    show (if setf o.cache n (o.cache t) n = 0 then _ else _) = k
    rw [setf_self, if_pos hz, hcur]

/-- C72 is false: the child of a fork goes by the id of its parent. -/
theorem C72_refuted : ¬ C72_own := by
  intro hall
  have h0 : Run (Os.start 100) [] (Os.start 100) := .refl
  have s1 : Step (Os.start 100) (some (0, 100)) ((Os.start 100).cached 0).2 := Step.cached (t := 0) (p := 0) (i := 100) rfl
  have r1 := h0.step s1
  obtain ⟨s2, hcur, hc, _⟩ := C72_fork (id := 100) (by omega) (by omega) r1 (t := 0) (p := 0) (i := 100) (n := 1) (q := 1)
    (k := 101) rfl rfl (by omega) (by omega)
    (by
      intro t p i hl
      have hl : (if t = 0 then some (0, 100) else none) = some (p, i) := hl
      split at hl <;> cases hl
      omega) rfl
  have r2 := r1.step s2
  have hgot := (hc 100 (by simp)).1
  have := hall 100 _ _ _ 1 _ (by omega) (by omega) r2 (Step.cached (p := 1) (i := 101) (by rfl))
  rw [hgot, hcur] at this
  exact absurd this (by decide)

/-- Two created threads in one process, the second asks twice; the id of the first is reused by a
third after it has ended. -/
example : ∃ o, Run (Os.start 7) [(0, 7), (1, 8), (1, 8), (2, 7)] o ∧ o.born 2 = some .created := by
  let o1 := ((Os.start 7).cached 0).2
  let o2 : Os := { live := setf o1.live 1 (some (0, 8)), born := setf o1.born 1 (some .created), cache := setf o1.cache 1 0 }
  let o3 := (o2.cached 1).2
  let o4 := (o3.cached 1).2
  let o5 : Os := { o4 with live := setf o4.live 0 none }
  let o6 : Os := { live := setf o5.live 2 (some (0, 7)), born := setf o5.born 2 (some .created), cache := setf o5.cache 2 0 }
  have r1 : Run (Os.start 7) [(0, 7)] o1 := Run.refl.step (Step.cached (t := 0) (p := 0) (i := 7) rfl)
  have r2 : Run (Os.start 7) [(0, 7)] o2 :=
    r1.step (Step.create (t := 0) (p := 0) (i := 7) (k := 8) rfl rfl (by omega) (by omega) (by
      intro t p i hl
      have hl : (if t = 0 then some (0, 7) else none) = some (p, i) := hl
      split at hl <;> cases hl
      omega))
  have r3 : Run (Os.start 7) [(0, 7), (1, 8)] o3 := r2.step (Step.cached (t := 1) (p := 0) (i := 8) rfl)
  have r4 : Run (Os.start 7) [(0, 7), (1, 8), (1, 8)] o4 := r3.step (Step.cached (t := 1) (p := 0) (i := 8) rfl)
  have r5 : Run (Os.start 7) [(0, 7), (1, 8), (1, 8)] o5 := r4.step (Step.exit (t := 0) (p := 0) (i := 7) rfl)
  have r6 : Run (Os.start 7) [(0, 7), (1, 8), (1, 8)] o6 :=
    r5.step (Step.create (t := 1) (p := 0) (i := 8) (k := 7) rfl rfl (by omega) (by omega) (by
      intro t p i hl
      have hl : setf (setf (Os.start 7).live 1 (some (0, 8))) 0 none t = some (p, i) := hl
      unfold setf at hl
      split at hl
      · cases hl
      · split at hl
        · cases hl; omega
        · simp only [Os.start] at hl
          split at hl
          · contradiction
          · cases hl))
  exact ⟨_, r6.step (Step.cached (t := 2) (p := 0) (i := 7) rfl), rfl⟩

end Phosphor.Tid
