import Verif.Model.Weak
namespace Phosphor.Weak
variable {L V N : Type}

/-- Later memory in which only views changed, and views know at least as much. -/
structure Grow (μ μ' : Mem L V N) : Prop where
  hist : μ'.hist = μ.hist
  wr : μ'.wr = μ.wr
  rd : μ'.rd = μ.rd
  ts : ∀ t l, (μ.view t).ts l ≤ (μ'.view t).ts l
  clk : ∀ t u, (μ.view t).clk u ≤ (μ'.view t).clk u

set_option linter.unusedSectionVars false
variable [DecidableEq L] [DecidableEq N]

theorem see_ts (v : View L) (l k : L) (ts : Nat) : v.ts k ≤ (v.see l ts).ts k := by
  unfold View.see; dsimp only; split
  · next h => subst h; exact Nat.le_max_left _ _
  · exact Nat.le_refl _

theorem see_self (v : View L) (l : L) (ts : Nat) : ts ≤ (v.see l ts).ts l := by
  unfold View.see; dsimp only; rw [if_pos rfl]; exact Nat.le_max_right _ _

theorem join_ts_left (v w : View L) (l : L) : v.ts l ≤ (v.join w).ts l := Nat.le_max_left _ _
theorem join_clk_left (v w : View L) (t : Nat) : v.clk t ≤ (v.join w).clk t := Nat.le_max_left _ _
theorem join_clk_right (v w : View L) (t : Nat) : w.clk t ≤ (v.join w).clk t :=
  Nat.le_max_right _ _

theorem tick_clk (v : View L) (t u : Nat) : v.clk u ≤ (v.tick t).clk u := by
  unfold View.tick setf; dsimp only; split
  · next h => subst h; exact Nat.le_succ _
  · exact Nat.le_refl _

theorem grow_view (μ : Mem L V N) (t : Nat) (v : View L)
    (h1 : ∀ l, (μ.view t).ts l ≤ v.ts l) (h2 : ∀ u, (μ.view t).clk u ≤ v.clk u) :
    Grow μ { μ with view := setf μ.view t v } where
  hist := rfl
  wr := rfl
  rd := rfl
  ts := by
    intro u l; dsimp only; by_cases hu : u = t
    · subst hu; rw [setf_self]; exact h1 l
    · rw [setf_ne _ _ hu]; exact Nat.le_refl _
  clk := by
    intro u k; dsimp only; by_cases hu : u = t
    · subst hu; rw [setf_self]; exact h2 k
    · rw [setf_ne _ _ hu]; exact Nat.le_refl _

theorem grow_loadRlx (μ : Mem L V N) (t : Nat) (l : L) (ts : Nat) : Grow μ (μ.loadRlx t l ts) :=
  grow_view μ t _ (fun _ => see_ts _ _ _ _) (fun _ => Nat.le_refl _)

theorem grow_loadAcq (μ : Mem L V N) (t : Nat) (l : L) (ts : Nat) (m : Msg L V) :
    Grow μ (μ.loadAcq t l ts m) :=
  grow_view μ t _ (fun _ => Nat.le_trans (see_ts _ _ _ _) (join_ts_left _ _ _))
    (fun _ => join_clk_left _ _ _)

theorem grow_other (μ : Mem L V N) (t : Nat) : Grow μ (μ.other t) :=
  grow_view μ t _ (fun _ => Nat.le_refl _) (fun _ => tick_clk _ _ _)

/-- `v` only knows of messages that exist (or of older timestamps). -/
def Known (μ : Mem L V N) (v : View L) : Prop :=
  ∀ l, ∃ ts m, v.ts l ≤ ts ∧ μ.hist l ts = some m

/-- Threads and messages only know of messages that exist. -/
structure Ok (μ : Mem L V N) : Prop where
  view : ∀ t, Known μ (μ.view t)
  msg : ∀ l ts m, μ.hist l ts = some m → Known μ m.view

theorem Known.mono {μ μ' : Mem L V N} {v : View L} (h : Known μ v)
    (hh : ∀ l ts m, μ.hist l ts = some m → μ'.hist l ts = some m) : Known μ' v := by
  intro l
  obtain ⟨ts, m, h1, h2⟩ := h l
  exact ⟨ts, m, h1, hh _ _ _ h2⟩

theorem Known.see {μ : Mem L V N} {v : View L} (h : Known μ v) {l : L} {ts : Nat} {m : Msg L V}
    (hm : μ.hist l ts = some m) : Known μ (v.see l ts) := by
  intro k
  obtain ⟨i, mi, h1, h2⟩ := h k
  unfold View.see; dsimp only
  split
  · next e =>
    subst e
    by_cases hle : ts ≤ i
    · exact ⟨i, mi, by omega, h2⟩
    · exact ⟨ts, m, by omega, hm⟩
  · exact ⟨i, mi, h1, h2⟩

theorem Known.join {μ : Mem L V N} {v w : View L} (h : Known μ v) (h' : Known μ w) :
    Known μ (v.join w) := by
  intro k
  obtain ⟨i, mi, h1, h2⟩ := h k
  obtain ⟨j, mj, h3, h4⟩ := h' k
  unfold View.join; dsimp only
  by_cases hle : i ≤ j
  · exact ⟨j, mj, by omega, h4⟩
  · exact ⟨i, mi, by omega, h2⟩

theorem ok_init (v : L → V) : Ok (Mem.init v : Mem L V N) where
  view := fun _ l => ⟨0, _, Nat.le_refl _, rfl⟩
  msg := by
    intro l ts m h
    simp only [Mem.init] at h
    split at h
    · cases h; exact fun l => ⟨0, _, Nat.le_refl _, rfl⟩
    · cases h

/-- Only the view of `t` changes. -/
theorem Ok.setView {μ : Mem L V N} (h : Ok μ) {t : Nat} {v : View L} (hv : Known μ v)
    {μ' : Mem L V N} (h1 : μ'.hist = μ.hist) (h2 : μ'.view = setf μ.view t v) : Ok μ' where
  view := by
    intro u
    rw [h2]
    refine Known.mono (μ := μ) ?_ (by rw [h1]; exact fun _ _ _ h => h)
    by_cases e : u = t
    · subst e; rw [setf_self]; exact hv
    · rw [setf_ne _ _ e]; exact h.view u
  msg := by
    intro l ts m hm
    rw [h1] at hm
    exact (h.msg l ts m hm).mono (by rw [h1]; exact fun _ _ _ h => h)

theorem Ok.tick {μ μ' : Mem L V N} (h : Ok μ) (t : Nat)
    (h1 : μ'.hist = μ.hist := by rfl) (h2 : μ'.view = setf μ.view t ((μ.view t).tick t) := by rfl) :
    Ok μ' :=
  h.setView (v := (μ.view t).tick t) (h.view t) h1 h2

theorem Ok.loadRlx {μ : Mem L V N} (h : Ok μ) {t : Nat} {l : L} {ts : Nat} {m : Msg L V}
    (hm : μ.hist l ts = some m) : Ok (μ.loadRlx t l ts) :=
  h.setView ((h.view t).see hm) rfl rfl

theorem Ok.loadAcq {μ : Mem L V N} (h : Ok μ) {t : Nat} {l : L} {ts : Nat} {m : Msg L V}
    (hm : μ.hist l ts = some m) : Ok (μ.loadAcq t l ts m) :=
  h.setView (((h.view t).see hm).join (h.msg _ _ _ hm)) rfl rfl

/-- A message is added and the view of `t` changes. -/
theorem Ok.addView {μ : Mem L V N} (h : Ok μ) {t : Nat} {l : L} {ts : Nat} {v : View L}
    {m : Msg L V} (hf : μ.hist l ts = none)
    (hv : Known (μ.add l ts m) v) (hm : Known (μ.add l ts m) m.view) :
    Ok ({ μ with view := setf μ.view t v }.add l ts m) := by
  have mono : ∀ k i mi, μ.hist k i = some mi →
      ({ μ with view := setf μ.view t v }.add l ts m).hist k i = some mi := by
    intro k i mi hi
    show (if k = l ∧ i = ts then some m else μ.hist k i) = some mi
    rw [if_neg]; exact hi
    rintro ⟨rfl, rfl⟩; rw [hf] at hi; cases hi
  constructor
  · intro u
    show Known _ (setf μ.view t v u)
    by_cases e : u = t
    · subst e; rw [setf_self]; exact hv
    · rw [setf_ne _ _ e]; exact (h.view u).mono mono
  · intro k i mi hi
    have hi : (if k = l ∧ i = ts then some m else μ.hist k i) = some mi := hi
    split at hi
    · cases hi; exact hm
    · exact (h.msg k i mi hi).mono mono

theorem Ok.known_add {μ : Mem L V N} {l : L} {ts : Nat} {v : View L} {m : Msg L V}
    (hv : Known μ v) (hf : μ.hist l ts = none) : Known (μ.add l ts m) v := by
  refine hv.mono ?_
  intro k i mi hi
  show (if k = l ∧ i = ts then some m else μ.hist k i) = some mi
  rw [if_neg]; exact hi
  rintro ⟨rfl, rfl⟩; rw [hf] at hi; cases hi

theorem add_self (μ : Mem L V N) (l : L) (ts : Nat) (m : Msg L V) :
    (μ.add l ts m).hist l ts = some m := if_pos ⟨rfl, rfl⟩

theorem Ok.storeRel {μ : Mem L V N} (h : Ok μ) {t : Nat} {l : L} {ts : Nat} (v : V)
    (hf : μ.hist l ts = none) : Ok (μ.storeRel t l ts v) :=
  h.addView hf ((Ok.known_add (h.view t) hf).see (add_self _ _ _ _))
    ((Ok.known_add (h.view t) hf).see (add_self _ _ _ _))

theorem Ok.rmwAcqRel {μ : Mem L V N} (h : Ok μ) {t : Nat} {l : L} {ts : Nat} {m : Msg L V} {v : V}
    (hm : μ.hist l ts = some m) (hf : μ.hist l (ts + 1) = none) : Ok (μ.rmwAcqRel t l ts m v) :=
  h.addView hf
    (((Ok.known_add (h.view t) hf).see (add_self _ _ _ _)).join
      (Ok.known_add (h.msg _ _ _ hm) hf))
    (((Ok.known_add (h.view t) hf).see (add_self _ _ _ _)).join
      (Ok.known_add (h.msg _ _ _ hm) hf))

end Phosphor.Weak
