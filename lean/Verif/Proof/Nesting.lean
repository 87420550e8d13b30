import Verif.Spec.Nesting
import Mathlib.Tactic.Common
/-
The stack of a viewer finds the starts and ends that belong together.
-/
namespace Phosphor.Nest
variable {α β : Type} {side : α → Side}

theorem Balanced.append {v w : List Side} (hv : Balanced v) (hw : Balanced w) : Balanced (v ++ w) := by
  induction hv with
  | nil => exact hw
  | plain _ ih => exact .plain ih
  | pair hm _ _ ih =>
    rw [List.cons_append, List.append_assoc, List.cons_append]
    exact .pair hm ih

/-- The stack after a list. -/
def stack (side : α → Side) : List α → List α → List α
  | st, [] => st
  | st, a :: w =>
    match side a with
    | .opens => stack side (a :: st) w
    | .plain => stack side st w
    | .closes => stack side st.tail w

theorem view_append (st v w : List α) : view side st (v ++ w) = view side st v ++ view side (stack side st v) w := by
  induction v generalizing st with
  | nil => rfl
  | cons a v ih =>
    rw [List.cons_append]
    rcases ha : side a with _ | _ | _
    · simp only [view, stack, ha]; exact ih _
    · rcases st with _ | ⟨x, st⟩
      · simp only [view, stack, ha]; exact ih _
      · simp only [view, stack, ha, List.tail_cons, List.cons_append]; rw [ih]
    · simp only [view, stack, ha]; exact ih _

theorem stack_append (st v w : List α) : stack side st (v ++ w) = stack side (stack side st v) w := by
  induction v generalizing st with
  | nil => rfl
  | cons a v ih =>
    rw [List.cons_append]
    rcases ha : side a with _ | _ | _ <;> simp only [stack, ha] <;> exact ih _

theorem stack_balanced {w : List Side} (h : Balanced w) : ∀ (m st : List α), m.map side = w → stack side st m = st := by
  induction h with
  | nil => intro m st e; rw [List.map_eq_nil_iff] at e; subst e; rfl
  | plain _ ih =>
    intro m st e
    rcases m with _ | ⟨a, m⟩
    · cases e
    · rw [List.map_cons, List.cons.injEq] at e
      unfold stack
      rw [e.1]
      exact ih m st e.2
  | pair hm hr ih1 ih2 =>
    intro m st e
    rcases m with _ | ⟨a, m⟩
    · cases e
    · rw [List.map_cons, List.cons.injEq] at e
      obtain ⟨m1, m2, rfl, e1, e2⟩ := List.map_eq_append_iff.1 e.2
      rcases m2 with _ | ⟨b, m2⟩
      · cases e2
      · rw [List.map_cons, List.cons.injEq] at e2
        unfold stack
        rw [e.1]
        dsimp only
        rw [stack_append, ih1 m1 _ e1]
        unfold stack
        rw [e2.1]
        exact ih2 m2 st e2.2

/-- Where the entries of the stack come from: the part of the trace after each is balanced up to the next. -/
inductive Ready (side : α → Side) : List α → List α → Prop
  | nil (w) : Ready side [] w
  | cons {x st p m} (hx : side x = .opens) (hm : Balanced (m.map side)) (hp : Ready side st p) :
      Ready side (x :: st) (p ++ x :: m)

theorem Ready.append {st w m : List α} (h : Ready side st w) (hm : Balanced (m.map side)) : Ready side st (w ++ m) := by
  cases h with
  | nil => exact .nil _
  | cons hx hm' hp =>
    rw [List.append_assoc, List.cons_append]
    refine .cons hx ?_ hp
    rw [List.map_append]
    exact hm'.append hm

theorem stack_ready (w : List α) : Ready side (stack side [] w) w := by
  suffices h : ∀ (v : List α) (st u : List α), Ready side st u → Ready side (stack side st v) (u ++ v) by
    have := h w [] [] (.nil _)
    simpa using this
  intro v
  induction v with
  | nil => intro st u h; rw [List.append_nil]; exact h
  | cons a v ih =>
    intro st u h
    rw [show u ++ a :: v = (u ++ [a]) ++ v by simp]
    unfold stack
    rcases ha : side a with _ | _ | _
    · exact ih _ _ (.cons ha .nil h)
    · refine ih _ _ ?_
      cases h with
      | nil => exact .nil _
      | cons hx hm hp =>
        rename_i x st p m
        rw [List.append_assoc]
        refine Ready.append hp ?_
        rw [List.cons_append, List.map_cons, List.map_append, List.map_cons, List.map_nil, hx, ha]
        exact .pair hm .nil
    · refine ih _ _ (h.append ?_)
      rw [List.map_cons, ha]
      exact .plain .nil

/-- What a viewer pairs, and nothing else, is a start and an end with a balanced part between. -/
theorem view_iff {w : List α} {a b : α} : (a, b) ∈ view side [] w ↔
    ∃ p m q, w = p ++ a :: (m ++ b :: q) ∧ side a = .opens ∧ side b = .closes ∧ Balanced (m.map side) := by
  constructor
  · intro h
    suffices H : ∀ (v st u : List α), Ready side st u → (a, b) ∈ view side st v →
        ∃ p m q, u ++ v = p ++ a :: (m ++ b :: q) ∧ side a = .opens ∧ side b = .closes ∧ Balanced (m.map side) by
      have := H w [] [] (.nil _) h
      simpa using this
    intro v
    induction v with
    | nil => intro st u _ h; cases h
    | cons c v ih =>
      intro st u hst h
      have hr : Ready side (stack side st [c]) (u ++ [c]) := by
        unfold stack
        rcases hc : side c with _ | _ | _
        · exact .cons hc .nil hst
        · cases hst with
          | nil => exact .nil _
          | cons hx hm hp =>
            rw [List.append_assoc]
            refine Ready.append hp ?_
            rw [List.cons_append, List.map_cons, List.map_append, List.map_cons, List.map_nil, hx, hc]
            exact .pair hm .nil
        · refine hst.append ?_
          rw [List.map_cons, hc]
          exact .plain .nil
      unfold stack stack at hr
      unfold view at h
      rw [show u ++ c :: v = (u ++ [c]) ++ v by simp]
      rcases hc : side c with _ | _ | _
      · rw [hc] at h hr; exact ih _ _ hr h
      · rw [hc] at h hr
        rcases st with _ | ⟨x, st⟩
        · exact ih _ _ hr h
        · dsimp only at h
          rcases List.mem_cons.1 h with e | h
          · cases e
            cases hst with
            | cons hx hm hp =>
              exact ⟨_, _, v, by rw [List.append_assoc, List.append_assoc]; rfl, hx, hc, hm⟩
          · exact ih _ _ hr h
      · rw [hc] at h hr; exact ih _ _ hr h
  · rintro ⟨p, m, q, rfl, ha, hb, hm⟩
    rw [view_append]
    refine List.mem_append_right _ ?_
    unfold view
    rw [ha]
    dsimp only
    rw [view_append, stack_balanced hm m _ rfl]
    refine List.mem_append_right _ ?_
    unfold view
    rw [hb]
    exact List.mem_cons_self

theorem zipIdx_split {w : List α} {p m q : List (α × Nat)} {x y : α × Nat} (h : w.zipIdx = p ++ x :: (m ++ y :: q)) :
    w = p.map (·.1) ++ x.1 :: (m.map (·.1) ++ y.1 :: q.map (·.1)) ∧ x.2 = p.length ∧ y.2 = p.length + m.length + 1 := by
  have h1 : w.zipIdx.map (·.1) = w := by simp
  refine ⟨by rw [← h1, h]; simp, ?_, ?_⟩
  · have e : w.zipIdx[p.length]? = some x := by rw [h]; simp
    rw [List.getElem?_zipIdx] at e
    simp only [Option.map_eq_some_iff] at e
    obtain ⟨_, _, rfl⟩ := e
    simp
  · have e : w.zipIdx[p.length + m.length + 1]? = some y := by
      rw [h, List.getElem?_append_right (by omega), show p.length + m.length + 1 - p.length = m.length + 1 by omega,
        List.getElem?_cons_succ, List.getElem?_append_right (by omega)]
      simp
    rw [List.getElem?_zipIdx] at e
    simp only [Option.map_eq_some_iff] at e
    obtain ⟨_, _, rfl⟩ := e
    simp

theorem pairs_iff {w : List α} {i j : Nat} : (i, j) ∈ pairs side w ↔ Partner (w.map side) i j := by
  unfold pairs
  simp only [List.mem_map, Prod.mk.injEq]
  constructor
  · rintro ⟨⟨x, y⟩, hm, rfl, rfl⟩
    obtain ⟨p, m, q, e, hx, hy, hb⟩ := view_iff.1 hm
    obtain ⟨e, h1, h2⟩ := zipIdx_split e
    refine ⟨(p.map (·.1)).map side, (m.map (·.1)).map side, (q.map (·.1)).map side, ?_, ?_, by simpa using h1, by simpa using h2⟩
    · rw [e]; simp [hx, hy]
    · rw [List.map_map]; exact hb
  · rintro ⟨p, m, q, e, hb, rfl, rfl⟩
    obtain ⟨p', r, rfl, rfl, e1⟩ := List.map_eq_append_iff.1 e
    obtain ⟨x, r, rfl, hx, e2⟩ := List.map_eq_cons_iff.1 e1
    obtain ⟨m', r, rfl, rfl, e3⟩ := List.map_eq_append_iff.1 e2
    obtain ⟨y, q', rfl, hy, rfl⟩ := List.map_eq_cons_iff.1 e3
    refine ⟨((x, p'.length), (y, p'.length + m'.length + 1)), view_iff.2 ⟨p'.zipIdx, m'.zipIdx (p'.length + 1),
      q'.zipIdx (p'.length + m'.length + 2), ?_, hx, hy, ?_⟩, by simp, by simp⟩
    · rw [List.zipIdx_append, List.zipIdx_cons, List.zipIdx_append, List.zipIdx_cons]
      simp only [Nat.zero_add]
      congr 4 <;> (first | omega | (congr 1; omega))
    · rw [show (fun x : α × Nat => side x.1) = side ∘ Prod.fst from rfl, ← List.map_map]
      simpa using hb

/-! ### Uniqueness -/

/-- Starts less ends. -/
def depth : List Side → Int
  | [] => 0
  | .opens :: w => depth w + 1
  | .closes :: w => depth w - 1
  | .plain :: w => depth w

theorem depth_append (v w : List Side) : depth (v ++ w) = depth v + depth w := by
  induction v with
  | nil => simp [depth]
  | cons a v ih => cases a <;> simp only [List.cons_append, depth, ih] <;> omega

theorem Balanced.depth {w : List Side} (h : Balanced w) : Nest.depth w = 0 := by
  induction h with
  | nil => rfl
  | plain _ ih => exact ih
  | pair _ _ h1 h2 => simp only [Nest.depth, depth_append, h1, h2]; rfl

theorem Balanced.prefix {w u v : List Side} (h : Balanced w) (e : w = u ++ v) : 0 ≤ Nest.depth u := by
  induction h generalizing u v with
  | nil => rw [List.nil_eq_append_iff] at e; rw [e.1]; exact Int.le_refl _
  | plain _ ih =>
    rcases u with _ | ⟨a, u⟩
    · exact Int.le_refl _
    · rw [List.cons_append, List.cons.injEq] at e
      rw [← e.1]; exact @ih u v e.2
  | pair hm hr h1 h2 =>
    rename_i m r
    rcases u with _ | ⟨a, u⟩
    · exact Int.le_refl _
    · rw [List.cons_append, List.cons.injEq] at e
      obtain ⟨rfl, e⟩ := e
      rcases List.append_eq_append_iff.1 e with ⟨c, e1, e2⟩ | ⟨c, e1, e2⟩
      · rcases c with _ | ⟨x, c⟩
        · have := hm.depth
          simp only [List.append_nil] at e1
          subst e1
          simp only [Nest.depth]; omega
        · rw [List.cons_append, List.cons.injEq] at e2
          obtain ⟨rfl, e2⟩ := e2
          have := h2 e2
          have := hm.depth
          rw [e1]
          simp only [Nest.depth, depth_append]; omega
      · have := h1 e1
        simp only [Nest.depth]; omega

theorem Balanced.suffix {w u v : List Side} (h : Balanced w) (e : w = u ++ v) : Nest.depth v ≤ 0 := by
  have h1 := h.prefix e
  have h2 := h.depth
  rw [e, depth_append] at h2
  omega

theorem Partner.end_unique {w : List Side} {i j j' : Nat} (h : Partner w i j) (h' : Partner w i j') : j = j' := by
  obtain ⟨p, m, q, e, hm, hi, rfl⟩ := h
  obtain ⟨p', m', q', e', hm', hi', rfl⟩ := h'
  have hl : p.length = p'.length := by omega
  rw [e] at e'
  obtain ⟨rfl, e3⟩ := List.append_inj e' hl
  rw [List.cons.injEq] at e3
  have key : ∀ {m m' q q' : List Side}, Balanced m → Balanced m' → m ++ .closes :: q = m' ++ .closes :: q' →
      ¬ m.length < m'.length := by
    intro m m' q q' hm hm' e hlt
    rcases List.append_eq_append_iff.1 e with ⟨c, e1, e2⟩ | ⟨c, e1, e2⟩
    · rcases c with _ | ⟨x, c⟩
      · rw [e1] at hlt; simp at hlt
      · rw [List.cons_append, List.cons.injEq] at e2
        obtain ⟨rfl, e2⟩ := e2
        have h1 := hm'.prefix (u := m ++ [.closes]) (v := c) (by rw [e1]; simp)
        have h2 := hm.depth
        simp only [depth_append, Nest.depth] at h1
        omega
    · have := congrArg List.length e1
      simp at this; omega
  have h1 := key hm hm' e3.2
  have h2 := key hm' hm e3.2.symm
  omega

theorem Partner.start_unique {w : List Side} {i i' j : Nat} (h : Partner w i j) (h' : Partner w i' j) : i = i' := by
  obtain ⟨p, m, q, e, hm, rfl, hj⟩ := h
  obtain ⟨p', m', q', e', hm', rfl, hj'⟩ := h'
  have key : ∀ {p m q p' m' q' : List Side}, Balanced m → Balanced m' →
      p ++ .opens :: (m ++ .closes :: q) = p' ++ .opens :: (m' ++ .closes :: q') →
      p.length + m.length = p'.length + m'.length → ¬ m.length < m'.length := by
    intro p m q p' m' q' hm hm' e hl hlt
    have e2 : (p ++ .opens :: m) ++ .closes :: q = (p' ++ .opens :: m') ++ .closes :: q' := by simpa using e
    obtain ⟨e3, -⟩ := List.append_inj e2 (by simp; omega)
    rcases List.append_eq_append_iff.1 e3 with ⟨c, e4, e5⟩ | ⟨c, e4, e5⟩
    · have := congrArg List.length e4
      simp at this; omega
    · rcases c with _ | ⟨x, c⟩
      · have := congrArg List.length e4
        simp at this; omega
      · rw [List.cons_append, List.cons.injEq] at e5
        have h1 := hm'.suffix (u := c) (v := .opens :: m) e5.2
        have h2 := hm.depth
        simp only [Nest.depth] at h1
        omega
  rw [e] at e'
  have h1 := key hm hm' e' (by omega)
  have h2 := key hm' hm e'.symm (by omega)
  omega

theorem Partner.lt {w : List Side} {i j : Nat} (h : Partner w i j) : i < j ∧ j < w.length := by
  obtain ⟨p, m, q, e, hm, rfl, rfl⟩ := h
  rw [e]; simp only [List.length_append, List.length_cons]; omega

/-- In a part of a trace those belong together that belong together in the whole. -/
theorem partner_infix {p v q : List Side} {i j : Nat} (hj : j < v.length) :
    Partner v i j ↔ Partner (p ++ v ++ q) (p.length + i) (p.length + j) := by
  constructor
  · rintro ⟨a, m, c, rfl, hm, rfl, rfl⟩
    exact ⟨p ++ a, m, c ++ q, by simp, hm, by simp, by simp; omega⟩
  · rintro ⟨a, m, c, e, hm, hi, hj'⟩
    have e : p ++ (v ++ q) = a ++ (.opens :: (m ++ .closes :: c)) := by rw [← e]; simp
    rcases List.append_eq_append_iff.1 e with ⟨d, e1, e2⟩ | ⟨d, e1, e2⟩
    · have e2 : v ++ q = (d ++ .opens :: (m ++ [.closes])) ++ c := by rw [e2]; simp
      have hd := congrArg List.length e1
      simp only [List.length_append] at hd
      rcases List.append_eq_append_iff.1 e2 with ⟨f, e3, e4⟩ | ⟨f, e3, e4⟩
      · have := congrArg List.length e3
        simp only [List.length_append, List.length_cons, List.length_nil] at this
        have hf : f = [] := List.eq_nil_of_length_eq_zero (by omega)
        subst hf
        rw [List.append_nil] at e3
        exact ⟨d, m, [], by rw [← e3], hm, by omega, by omega⟩
      · exact ⟨d, m, f, by rw [e3]; simp, hm, by omega, by omega⟩
    · have hd := congrArg List.length e1
      simp only [List.length_append] at hd
      have h0 : d = [] := List.eq_nil_of_length_eq_zero (by omega)
      subst h0
      rw [List.append_nil] at e1
      subst e1
      rw [List.nil_append] at e2
      have e2 : v ++ q = (.opens :: (m ++ [.closes])) ++ c := by rw [← e2]; simp
      rcases List.append_eq_append_iff.1 e2 with ⟨f, e3, e4⟩ | ⟨f, e3, e4⟩
      · have := congrArg List.length e3
        simp only [List.length_append, List.length_cons, List.length_nil] at this
        have hf : f = [] := List.eq_nil_of_length_eq_zero (by omega)
        subst hf
        rw [List.append_nil] at e3
        exact ⟨[], m, [], by rw [← e3]; simp, hm, by simp; omega, by simp; omega⟩
      · exact ⟨[], m, f, by rw [e3]; simp, hm, by simp; omega, by simp; omega⟩

/-! ### Leaving out categories -/

theorem stack_filter {on : α → Bool} : ∀ (w st : List α), (∀ p ∈ view side st w, on p.1 = on p.2) →
    view side (st.filter on) (w.filter on) = (view side st w).filter (fun p => on p.1) := by
  intro w
  induction w with
  | nil => intro st _; rfl
  | cons a w ih =>
    intro st h
    rcases ha : side a with _ | _ | _
    · simp only [view, ha] at h
      have := ih (a :: st) h
      rcases hon : on a with _ | _
      · rw [List.filter_cons_of_neg (by simp [hon])] at this ⊢
        simp only [view, ha]; exact this
      · rw [List.filter_cons_of_pos hon] at this ⊢
        simp only [view, ha]; exact this
    · rcases st with _ | ⟨x, st⟩
      · simp only [view, ha] at h
        have := ih [] h
        rcases hon : on a with _ | _
        · rw [List.filter_cons_of_neg (by simp [hon])]
          simp only [view, ha]; exact this
        · rw [List.filter_cons_of_pos hon]
          simp only [view, ha, List.filter_nil]; exact this
      · simp only [view, ha] at h
        have he : on x = on a := h (x, a) List.mem_cons_self
        have := ih st (fun p hp => h p (List.mem_cons_of_mem _ hp))
        rcases hon : on a with _ | _
        · rw [hon] at he
          rw [List.filter_cons_of_neg (a := x) (by simp [he]), List.filter_cons_of_neg (a := a) (by simp [hon])]
          simp only [view, ha]
          rw [List.filter_cons_of_neg (by simp [he])]
          exact this
        · rw [hon] at he
          rw [List.filter_cons_of_pos (a := x) he, List.filter_cons_of_pos (a := a) hon]
          simp only [view, ha]
          rw [List.filter_cons_of_pos (by simp [he])]
          rw [this]
    · simp only [view, ha] at h
      have := ih st h
      rcases hon : on a with _ | _
      · rw [List.filter_cons_of_neg (by simp [hon])]
        simp only [view, ha]; exact this
      · rw [List.filter_cons_of_pos hon]
        simp only [view, ha]; exact this

end Phosphor.Nest
