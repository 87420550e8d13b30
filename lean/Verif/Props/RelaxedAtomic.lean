import Verif.Model.RelaxedAtomic
import Mathlib.Tactic.ByContra
import Mathlib.Tactic.NormNum
/-
C73: the counters of chunks on loan.
-/
namespace Phosphor.RA
open Weak

/-! ### C73 Relaxed counters count -/

/-- What an access adds to the object `l`. -/
def Act.delta (l : Nat) : Act → Option Int
  | .preInc k | .postInc k => if k = l then some 1 else none
  | .preDec k | .postDec k => if k = l then some (-1) else none
  | _ => none

/-- The increments (`1`) and decrements (`-1`) of `l`, oldest first. -/
def changes (l : Nat) (r : List (Nat × Act × BitVec 64)) : List Int := r.filterMap (fun p => p.2.1.delta l)

/-- No store to `l`. -/
def NoStore (l : Nat) (r : List (Nat × Act × BitVec 64)) : Prop := ∀ t v x, (t, Act.store l v, x) ∉ r

/-- The object after the given changes of `v`. -/
def after (v : BitVec 64) (ds : List Int) : BitVec 64 := v + BitVec.ofInt 64 ds.sum

/-- What memory looks like after the accesses `r`, as to object `l`. -/
structure Counts (v : BitVec 64) (l : Nat) (r : List (Nat × Act × BitVec 64)) (μ : RMem) : Prop where
  hi : ∀ ts, (changes l r).length < ts → μ.hist l ts = none
  lo : ∀ ts, ts ≤ (changes l r).length → ∃ m, μ.hist l ts = some m ∧ m.val = after v ((changes l r).take ts)
  seen : ∀ t, (μ.view t).ts l ≤ (changes l r).length

theorem changes_append (l : Nat) (r r' : List (Nat × Act × BitVec 64)) :
    changes l (r ++ r') = changes l r ++ changes l r' := by simp [changes]

theorem after_snoc (v : BitVec 64) (ds : List Int) (d : Int) :
    after v (ds ++ [d]) = after v ds + BitVec.ofInt 64 d := by
  simp [after, BitVec.ofInt_add, BitVec.add_assoc]

/-- The access changes memory as to `l` like an access that reads message `ts`. -/
theorem Counts.same {v : BitVec 64} {l : Nat} {r : List (Nat × Act × BitVec 64)} {μ μ' : RMem} (h : Counts v l r μ)
    {p : Nat × Act × BitVec 64} (hp : p.2.1.delta l = none) (hh : ∀ ts, μ'.hist l ts = μ.hist l ts)
    (hv : ∀ t, (μ'.view t).ts l ≤ (changes l r).length) : Counts v l (r ++ [p]) μ' := by
  have hc : changes l (r ++ [p]) = changes l r := by simp [changes, hp]
  exact ⟨fun ts ht => by rw [hh]; exact h.hi ts (by rw [hc] at ht; exact ht),
    fun ts ht => by rw [hh, hc]; exact h.lo ts (by rw [hc] at ht; exact ht), fun t => by rw [hc]; exact hv t⟩

theorem view_setf {f : Nat → View Nat} {t u l n : Nat} {w : View Nat} (hf : ∀ u, (f u).ts l ≤ n)
    (hw : w.ts l ≤ n) : (setf f t w u).ts l ≤ n := by
  unfold setf; split
  · exact hw
  · exact hf u

theorem see_le {w : View Nat} {k l ts n : Nat} (hw : w.ts l ≤ n) (hk : k = l → ts ≤ n) : (w.see k ts).ts l ≤ n := by
  unfold View.see
  dsimp only
  split
  · rename_i e; subst e; exact Nat.max_le.2 ⟨hw, hk rfl⟩
  · exact hw

theorem Counts.last {v : BitVec 64} {l : Nat} {r : List (Nat × Act × BitVec 64)} {μ : RMem} (h : Counts v l r μ)
    {t ts : Nat} {m : Msg Nat (BitVec 64)} (hm : μ.readable t l ts m) (hn : μ.hist l (ts + 1) = none) :
    ts = (changes l r).length ∧ m.val = after v (changes l r) := by
  have h1 : ts ≤ (changes l r).length := by
    by_contra hlt
    have := h.hi ts (by omega)
    rw [hm.1] at this; cases this
  have h2 : ts = (changes l r).length := by
    by_contra hne
    obtain ⟨m', e, _⟩ := h.lo (ts + 1) (by omega)
    rw [hn] at e; cases e
  refine ⟨h2, ?_⟩
  obtain ⟨m', e, e'⟩ := h.lo ts h1
  rw [hm.1] at e; cases e
  rw [e', h2, List.take_length]

theorem Counts.rmw {v : BitVec 64} {l : Nat} {r : List (Nat × Act × BitVec 64)} {μ : RMem} (h : Counts v l r μ)
    {t k ts : Nat} {m : Msg Nat (BitVec 64)} (hm : μ.readable t k ts m) (hn : μ.hist k (ts + 1) = none)
    {p : Nat × Act × BitVec 64} {d : Int} (hp : p.2.1.delta l = if k = l then some d else none)
    {x : BitVec 64} (hx : x = m.val + BitVec.ofInt 64 d) : Counts v l (r ++ [p]) (μ.rmwRlx t k ts m x) := by
  by_cases hk : k = l
  · subst hk
    rw [if_pos rfl] at hp
    obtain ⟨e1, e2⟩ := h.last hm hn
    have hc : changes k (r ++ [p]) = changes k r ++ [d] := by simp [changes, hp]
    refine ⟨?_, ?_, ?_⟩
    · intro i hi
      rw [hc] at hi; simp at hi
      show (if k = k ∧ i = ts + 1 then _ else μ.hist k i) = none
      rw [if_neg (by omega)]; exact h.hi i (by omega)
    · intro i hi
      rw [hc] at hi ⊢; simp at hi
      show ∃ m', (if k = k ∧ i = ts + 1 then _ else μ.hist k i) = some m' ∧ _
      by_cases hi' : i = ts + 1
      · rw [if_pos ⟨rfl, hi'⟩]
        refine ⟨_, rfl, ?_⟩
        rw [List.take_of_length_le (by simp; omega), after_snoc, ← e2]
        exact hx
      · rw [if_neg (by omega), List.take_append_of_le_length (by omega)]
        exact h.lo i (by omega)
    · intro u
      rw [hc]; simp only [List.length_append, List.length_singleton]
      exact view_setf (fun u => Nat.le_succ_of_le (h.seen u))
        (see_le (Nat.le_succ_of_le (h.seen t)) (fun _ => by omega))
  · rw [if_neg hk] at hp
    refine h.same hp ?_ ?_
    · intro i
      show (if l = k ∧ i = ts + 1 then _ else μ.hist l i) = _
      rw [if_neg (fun e => hk e.1.symm)]
    · intro u
      exact view_setf h.seen (see_le (h.seen t) (fun e => absurd e hk))

theorem Counts.step {v : BitVec 64} {l : Nat} {r : List (Nat × Act × BitVec 64)} {μ μ' : RMem} {t : Nat} {a : Act}
    {x : BitVec 64} (h : Counts v l r μ) (hs : Step μ t a x μ') (hn : NoStore l (r ++ [(t, a, x)])) :
    Counts v l (r ++ [(t, a, x)]) μ' := by
  cases hs with
  | load hm =>
    rename_i k ts m
    refine h.same rfl (fun _ => rfl) (fun u => view_setf h.seen (see_le (h.seen t) ?_))
    rintro rfl
    by_contra hlt
    have := h.hi ts (by omega)
    rw [hm.1] at this; cases this
  | store hf =>
    rename_i k ts
    have hk : k ≠ l := by rintro rfl; exact hn t x x (by simp)
    refine h.same rfl ?_ (fun u => view_setf h.seen (see_le (h.seen t) (fun e => absurd e hk)))
    intro i
    show (if l = k ∧ i = ts then _ else μ.hist l i) = _
    rw [if_neg (fun e => hk e.1.symm)]
  | preInc hm h1 => exact h.rmw hm h1 (d := 1) rfl rfl
  | postInc hm h1 => exact h.rmw hm h1 (d := 1) rfl rfl
  | preDec hm h1 => exact h.rmw hm h1 (d := -1) rfl (by rw [BitVec.sub_eq_add_neg]; rfl)
  | postDec hm h1 => exact h.rmw hm h1 (d := -1) rfl (by rw [BitVec.sub_eq_add_neg]; rfl)
  | sync =>
    rename_i u
    refine h.same rfl (fun _ => rfl) (fun w => view_setf h.seen ?_)
    exact Nat.max_le.2 ⟨h.seen t, h.seen u⟩

theorem Counts.run {v : Nat → BitVec 64} {l : Nat} {r : List (Nat × Act × BitVec 64)} {μ : RMem}
    (hr : Run (Mem.init v) r μ) (hn : NoStore l r) : Counts (v l) l r μ := by
  generalize h0 : (Mem.init v : RMem) = μ0 at hr
  induction hr with
  | refl =>
    subst h0
    refine ⟨?_, ?_, fun _ => Nat.le_refl _⟩
    · intro ts hts
      exact if_neg (Nat.ne_of_gt hts)
    · intro ts hts
      have : ts = 0 := Nat.le_zero.1 hts
      subst this
      exact ⟨⟨v l, View.bot⟩, rfl, by simp [after, changes]⟩
  | step _ hs ih => exact (ih (fun t v x hm => hn t v x (List.mem_append_left _ hm))).step hs hn

/-- C73: no increment or decrement is lost: whatever threads do in whatever order memory shows it,
each gets to see, and adds to, the sum of all that came before it in one order common to all
threads. -/
theorem C73_atomic {v : Nat → BitVec 64} {l : Nat} {r : List (Nat × Act × BitVec 64)} {μ μ' : RMem}
    (hr : Run (Mem.init v) r μ) (hn : NoStore l r) {t : Nat} {x : BitVec 64} :
    (Step μ t (.preInc l) x μ' → x = after (v l) (changes l r) + 1) ∧
    (Step μ t (.postInc l) x μ' → x = after (v l) (changes l r)) ∧
    (Step μ t (.preDec l) x μ' → x = after (v l) (changes l r) - 1) ∧
    (Step μ t (.postDec l) x μ' → x = after (v l) (changes l r)) := by
  have h := Counts.run hr hn
  refine ⟨?_, ?_, ?_, ?_⟩
  · intro hs; cases hs with | preInc hm h1 => rw [(h.last hm h1).2]
  · intro hs
    generalize ha : Act.postInc l = a at hs
    cases hs <;> cases ha
    exact (h.last ‹_› ‹_›).2
  · intro hs; cases hs with | preDec hm h1 => rw [(h.last hm h1).2]
  · intro hs
    generalize ha : Act.postDec l = a at hs
    cases hs <;> cases ha
    exact (h.last ‹_› ‹_›).2

theorem sum_toNat (ds : List Int) (hpos : 0 ≤ ds.sum) (hlt : ds.sum < 2 ^ 64) :
    ((after 0 ds).toNat : Int) = ds.sum := by
  unfold after
  rw [show (0 : BitVec 64) = 0#64 from rfl, BitVec.zero_add, BitVec.toNat_ofInt]
  have h1 : ds.sum % (2 ^ 64 : Nat) = ds.sum := Int.emod_eq_of_lt hpos (by exact_mod_cast hlt)
  have : ((2 : Nat) ^ 64 : Nat) = 18446744073709551616 := by norm_num
  omega

/-- C73: a counter that starts at zero and is decremented only after it was incremented never wraps
around: every value it ever has is the number of increments minus the number of decrements so far. -/
theorem C73_no_wrap {v : Nat → BitVec 64} {l : Nat} (h0 : v l = 0) {r : List (Nat × Act × BitVec 64)} {μ : RMem}
    (hr : Run (Mem.init v) r μ) (hn : NoStore l r)
    (hbal : ∀ k, 0 ≤ ((changes l r).take k).sum ∧ ((changes l r).take k).sum < 2 ^ 64)
    {ts : Nat} {m : Msg Nat (BitVec 64)} (hm : μ.hist l ts = some m) :
    ts ≤ (changes l r).length ∧ (m.val.toNat : Int) = ((changes l r).take ts).sum := by
  have h := Counts.run hr hn
  have h1 : ts ≤ (changes l r).length := by
    by_contra hlt
    have := h.hi ts (by omega)
    rw [hm] at this; cases this
  obtain ⟨m', e, e'⟩ := h.lo ts h1
  rw [hm] at e; cases e
  refine ⟨h1, ?_⟩
  rw [e', h0]
  exact sum_toNat _ (hbal ts).1 (hbal ts).2

theorem see_ge (w : View Nat) (k l ts : Nat) : w.ts l ≤ (w.see k ts).ts l := by
  unfold View.see; dsimp only; split
  · rename_i e; subst e; exact Nat.le_max_left _ _
  · exact Nat.le_refl _

theorem step_view {μ μ' : RMem} {t : Nat} {a : Act} {x : BitVec 64} (hs : Step μ t a x μ') (u l : Nat) :
    (μ.view u).ts l ≤ (μ'.view u).ts l := by
  have key : ∀ (w : View Nat), (μ.view t).ts l ≤ w.ts l → (μ.view u).ts l ≤ (setf μ.view t w u).ts l := by
    intro w hw
    unfold setf; split
    · rename_i e; subst e; exact hw
    · exact Nat.le_refl _
  cases hs with
  | load => exact key _ (see_ge _ _ _ _)
  | store => exact key _ (see_ge _ _ _ _)
  | preInc => exact key _ (see_ge _ _ _ _)
  | postInc => exact key _ (see_ge _ _ _ _)
  | preDec => exact key _ (see_ge _ _ _ _)
  | postDec => exact key _ (see_ge _ _ _ _)
  | sync => exact key _ (Nat.le_max_left _ _)

/-- C73: a read yields the counter after some first part of the changes, one at least as long as
what the thread has seen; afterwards the thread has seen it. So reads of one thread never go back
in time. -/
theorem C73_read {v : Nat → BitVec 64} {l : Nat} {r : List (Nat × Act × BitVec 64)} {μ μ' : RMem}
    (hr : Run (Mem.init v) r μ) (hn : NoStore l r) {t : Nat} {x : BitVec 64} (hs : Step μ t (.load l) x μ') :
    ∃ k, k ≤ (changes l r).length ∧ x = after (v l) ((changes l r).take k) ∧ (μ.view t).ts l ≤ k ∧
      (μ'.view t).ts l = k := by
  have h := Counts.run hr hn
  generalize ha : Act.load l = a at hs
  cases hs <;> cases ha
  rename_i ts m hm
  have h1 : ts ≤ (changes l r).length := by
    by_contra hlt
    have := h.hi ts (by omega)
    rw [hm.1] at this; cases this
  obtain ⟨m', e, e'⟩ := h.lo ts h1
  rw [hm.1] at e; cases e
  refine ⟨ts, h1, e', hm.2, ?_⟩
  show (setf μ.view t _ t).ts l = ts
  rw [setf_self]
  show (if l = l then max _ ts else _) = ts
  rw [if_pos rfl]
  exact Nat.max_eq_right hm.2

/-- The thread knows of all changes of `l` in `r`: each was its own or was followed by a
synchronisation with the thread that made it. -/
def Knows (t l : Nat) (r : List (Nat × Act × BitVec 64)) : Prop :=
  ∀ p u a x q, r = p ++ (u, a, x) :: q → a.delta l ≠ none → u = t ∨ ∃ y, (t, Act.sync u, y) ∈ q

theorem own_seen {v : Nat → BitVec 64} {l : Nat} {r : List (Nat × Act × BitVec 64)} {μ μ' : RMem}
    (hr : Run (Mem.init v) r μ) (hn : NoStore l r) {t : Nat} {a : Act} {x : BitVec 64} (hs : Step μ t a x μ')
    (ha : a.delta l ≠ none) : (changes l r).length < (μ'.view t).ts l := by
  have h := Counts.run hr hn
  have key : ∀ (k ts : Nat) (m : Msg Nat (BitVec 64)) (x : BitVec 64), k = l → μ.readable t k ts m →
      μ.hist k (ts + 1) = none → (changes l r).length < ((μ.rmwRlx t k ts m x).view t).ts l := by
    rintro k ts m x rfl hm h1
    have := (h.last hm h1).1
    show _ < (setf μ.view t _ t).ts k
    rw [setf_self]
    show _ < (if k = k then max _ (ts + 1) else _)
    rw [if_pos rfl]; omega
  have hd : ∀ k (d : Int), (if k = l then some d else none) ≠ none → k = l := by
    intro k d hk; by_contra hne; rw [if_neg hne] at hk; exact hk rfl
  cases hs with
  | load => exact absurd rfl ha
  | store => exact absurd rfl ha
  | sync => exact absurd rfl ha
  | preInc hm h1 => exact key _ _ _ _ (hd _ _ ha) hm h1
  | postInc hm h1 => exact key _ _ _ _ (hd _ _ ha) hm h1
  | preDec hm h1 => exact key _ _ _ _ (hd _ _ ha) hm h1
  | postDec hm h1 => exact key _ _ _ _ (hd _ _ ha) hm h1

theorem seen_of {v : Nat → BitVec 64} {l : Nat} {r : List (Nat × Act × BitVec 64)} {μ : RMem}
    (hr : Run (Mem.init v) r μ) (hn : NoStore l r) :
    ∀ p u a x q, r = p ++ (u, a, x) :: q → a.delta l ≠ none →
      (changes l p).length < (μ.view u).ts l ∧
      ∀ t y, (t, Act.sync u, y) ∈ q → (changes l p).length < (μ.view t).ts l := by
  generalize h0 : (Mem.init v : RMem) = μ0 at hr
  induction hr with
  | refl => intro p u a x q he; simp at he
  | @step r μ t0 a0 x0 μ' hr hs ih =>
    subst h0
    have hn' : NoStore l r := fun t v x hm => hn t v x (List.mem_append_left _ hm)
    intro p u a x q he hd
    rcases List.eq_nil_or_concat q with rfl | ⟨q', z, rfl⟩
    · have := List.append_inj' he rfl
      obtain ⟨rfl, e⟩ := this
      cases e
      exact ⟨own_seen hr hn' hs hd, fun t y hm => by cases hm⟩
    · have he' : r ++ [(t0, a0, x0)] = (p ++ (u, a, x) :: q') ++ [z] := by rw [he]; simp
      have := List.append_inj' he' rfl
      obtain ⟨e1, e2⟩ := this
      cases e2
      obtain ⟨i1, i2⟩ := ih hn' p u a x q' e1 hd
      refine ⟨Nat.lt_of_lt_of_le i1 (step_view hs u l), fun t y hm => ?_⟩
      rw [List.concat_eq_append] at hm
      rcases List.mem_append.1 hm with hm | hm
      · exact Nat.lt_of_lt_of_le (i2 t y hm) (step_view hs t l)
      · simp only [List.mem_singleton] at hm
        cases hm
        cases hs with
        | sync =>
          show _ < (setf μ.view t0 _ t0).ts l
          rw [setf_self]
          exact Nat.lt_of_lt_of_le i1 (Nat.le_max_right _ _)

/-- C73: a thread that knows of all changes, because they are its own or it has synchronised since,
reads the exact count. -/
theorem C73_exact {v : Nat → BitVec 64} {l : Nat} {r : List (Nat × Act × BitVec 64)} {μ μ' : RMem}
    (hr : Run (Mem.init v) r μ) (hn : NoStore l r) {t : Nat} (hk : Knows t l r) {x : BitVec 64}
    (hs : Step μ t (.load l) x μ') : x = after (v l) (changes l r) := by
  obtain ⟨k, h1, h2, h3, _⟩ := C73_read hr hn hs
  rw [h2]
  have hlen : (changes l r).length ≤ (μ.view t).ts l := by
    -- the last change
    have hsplit : ∀ r : List (Nat × Act × BitVec 64), changes l r = [] ∨
        ∃ p z q, r = p ++ z :: q ∧ z.2.1.delta l ≠ none ∧ changes l q = [] := by
      intro r
      induction r with
      | nil => exact Or.inl rfl
      | cons z r ih =>
        rcases ih with ih | ⟨p, z', q, e, hd, hq⟩
        · by_cases hz : z.2.1.delta l = none
          · left; simp [changes, hz] at ih ⊢; exact ih
          · exact Or.inr ⟨[], z, r, rfl, hz, ih⟩
        · exact Or.inr ⟨z :: p, z', q, by rw [e]; rfl, hd, hq⟩
    rcases hsplit r with e | ⟨p, ⟨u, a, y⟩, q, e, hd, hq⟩
    · rw [e]; exact Nat.zero_le _
    · have hcount : (changes l r).length = (changes l p).length + 1 := by
        obtain ⟨d, hd'⟩ := Option.ne_none_iff_exists'.1 hd
        rw [e, changes_append]
        have : changes l ((u, a, y) :: q) = d :: changes l q := by
          simp only [changes, List.filterMap_cons]; rw [show Act.delta l a = some d from hd']
        rw [this, hq]; simp
      obtain ⟨s1, s2⟩ := seen_of hr hn p u a y q e hd
      rcases hk p u a y q e hd with rfl | ⟨z, hz⟩
      · omega
      · have := s2 t z hz; omega
  rw [List.take_of_length_le (by omega)]

/-- Copying to a counter that others change is not atomic: an increment between the load and the
store of an assignment of a counter to itself is lost. -/
theorem C73_assign_loses : ∃ μ : RMem, Run (Mem.init fun _ => 0)
    [(0, .load 0, 0), (1, .preInc 0, 1), (0, .store 0 0, 0), (1, .load 0, 0)] μ ∧
    [(Act.load 0, (0 : BitVec 64)), (Act.store 0 0, 0)] = copyActs 0 0 0 := by
  let μ0 : RMem := Mem.init fun _ => 0
  let m0 : Msg Nat (BitVec 64) := ⟨0, View.bot⟩
  let μ1 := μ0.loadRlx 0 0 0
  let μ2 := μ1.rmwRlx 1 0 0 m0 1
  let μ3 := μ2.storeRlx 0 0 2 0
  have r1 : Run μ0 [(0, .load 0, 0)] μ1 := Run.refl.step (Step.load (m := m0) ⟨rfl, Nat.le_refl _⟩)
  have r2 : Run μ0 [(0, .load 0, 0), (1, .preInc 0, 1)] μ2 :=
    r1.step (Step.preInc (ts := 0) (m := m0) ⟨rfl, Nat.le_refl _⟩ rfl)
  have r3 : Run μ0 [(0, .load 0, 0), (1, .preInc 0, 1), (0, .store 0 0, 0)] μ3 :=
    r2.step (Step.store (ts := 2) ⟨rfl, by show (0 : Nat) < 2; omega⟩)
  exact ⟨_, r3.step (Step.load (t := 1) (l := 0) (ts := 2) (m := m0) ⟨rfl, by show (1 : Nat) ≤ 2; omega⟩), rfl⟩

/-- Two threads count up and one down; a third that has synchronised with both reads the count, one
that has not may read zero. -/
example : ∃ μ : RMem, Run (Mem.init fun _ => 0)
    [(0, .preInc 0, 1), (1, .preInc 0, 2), (0, .preDec 0, 1), (2, .load 0, 0), (3, .sync 0, 0), (3, .sync 1, 0),
     (3, .load 0, 1)] μ := by
  let μ0 : RMem := Mem.init fun _ => 0
  let m0 : Msg Nat (BitVec 64) := ⟨0, View.bot⟩
  let m1 : Msg Nat (BitVec 64) := ⟨1, View.bot⟩
  let m2 : Msg Nat (BitVec 64) := ⟨2, View.bot⟩
  let μ1 := μ0.rmwRlx 0 0 0 m0 1
  let μ2 := μ1.rmwRlx 1 0 1 m1 2
  let μ3 := μ2.rmwRlx 0 0 2 m2 1
  let μ4 := μ3.loadRlx 2 0 0
  let μ5 : RMem := { μ4 with view := setf μ4.view 3 ((μ4.view 3).join (μ4.view 0)) }
  let μ6 : RMem := { μ5 with view := setf μ5.view 3 ((μ5.view 3).join (μ5.view 1)) }
  have r1 : Run μ0 [(0, .preInc 0, 1)] μ1 := Run.refl.step (Step.preInc (ts := 0) (m := m0) ⟨rfl, Nat.le_refl _⟩ rfl)
  have r2 : Run μ0 [(0, .preInc 0, 1), (1, .preInc 0, 2)] μ2 :=
    r1.step (Step.preInc (ts := 1) (m := m1) ⟨rfl, Nat.zero_le _⟩ rfl)
  have r3 : Run μ0 [(0, .preInc 0, 1), (1, .preInc 0, 2), (0, .preDec 0, 1)] μ3 :=
    r2.step (by
      have h := Step.preDec (μ := μ2) (t := 0) (l := 0) (ts := 2) (m := m2) ⟨rfl, by show (1 : Nat) ≤ 2; omega⟩ rfl
      have e : m2.val - 1 = 1 := by decide
      rw [e] at h
      exact h)
  have r4 := r3.step (Step.load (t := 2) (l := 0) (ts := 0) (m := m0) ⟨rfl, Nat.le_refl _⟩)
  have r5 := r4.step (Step.sync (t := 3) (u := 0))
  have r6 := r5.step (Step.sync (t := 3) (u := 1))
  exact ⟨_, r6.step (Step.load (t := 3) (l := 0) (ts := 3) (m := m1) ⟨rfl, by show (3 : Nat) ≤ 3; omega⟩)⟩

end Phosphor.RA
