import Verif.Model.Weak
/-
Release/acquire memory never blocks a thread: there is always a message to read and room for a
new one (C87).
-/
set_option linter.unusedSectionVars false

namespace Phosphor.Weak
variable {L V N : Type} [DecidableEq L] [DecidableEq N]

/-- What a view knows of exists. -/
def View.Known (h : L → Nat → Option (Msg L V)) (v : View L) : Prop := ∀ l, ∃ m, h l (v.ts l) = some m

/-- Views point to messages, and locations have finitely many. -/
structure Mem.Wf (μ : Mem L V N) : Prop where
  view : ∀ t, (μ.view t).Known μ.hist
  msg : ∀ l ts m, μ.hist l ts = some m → m.view.Known μ.hist
  fin : ∀ l, ∃ n, ∀ ts, n ≤ ts → μ.hist l ts = none

theorem View.Known.join {h : L → Nat → Option (Msg L V)} {v w : View L} (hv : v.Known h) (hw : w.Known h) :
    (v.join w).Known h := by
  intro l
  rcases Nat.le_total (v.ts l) (w.ts l) with hl | hl
  · obtain ⟨m, hm⟩ := hw l; exact ⟨m, by show h l (max _ _) = _; rw [Nat.max_eq_right hl]; exact hm⟩
  · obtain ⟨m, hm⟩ := hv l; exact ⟨m, by show h l (max _ _) = _; rw [Nat.max_eq_left hl]; exact hm⟩

theorem View.Known.see {h : L → Nat → Option (Msg L V)} {v : View L} (hv : v.Known h) {l : L} {ts : Nat}
    (hm : ∃ m, h l ts = some m) : (v.see l ts).Known h := by
  intro k
  by_cases hk : k = l
  · subst hk
    have e : (v.see k ts).ts k = max (v.ts k) ts := if_pos rfl
    rw [e]
    rcases Nat.le_total (v.ts k) ts with hl | hl
    · rw [Nat.max_eq_right hl]; exact hm
    · rw [Nat.max_eq_left hl]; exact hv k
  · have e : (v.see l ts).ts k = v.ts k := if_neg hk
    rw [e]; exact hv k

theorem View.Known.tick {h : L → Nat → Option (Msg L V)} {v : View L} (hv : v.Known h) (t : Nat) :
    (v.tick t).Known h := hv

theorem View.Known.grow {h h' : L → Nat → Option (Msg L V)} {v : View L} (hv : v.Known h)
    (hg : ∀ l ts m, h l ts = some m → ∃ m', h' l ts = some m') : v.Known h' := by
  intro l
  obtain ⟨m, hm⟩ := hv l
  exact hg _ _ _ hm

variable {μ : Mem L V N} {t : Nat} {l : L} {ts : Nat} {m : Msg L V} {v : V}

theorem Mem.Wf.init (v : L → V) : (Mem.init v : Mem L V N).Wf := by
  refine ⟨fun t l => ⟨⟨v l, View.bot⟩, rfl⟩, ?_, fun l => ⟨1, fun ts h => if_neg (by omega)⟩⟩
  intro l ts m h k
  simp only [Mem.init] at h
  split at h
  · cases h; exact ⟨⟨v k, View.bot⟩, rfl⟩
  · cases h

/-- The view of one thread changes. -/
theorem Mem.Wf.look (h : μ.Wf) {w : View L} (hw : w.Known μ.hist) {wr rd : N → Clock} :
    Mem.Wf ⟨μ.hist, setf μ.view t w, wr, rd⟩ := by
  refine ⟨fun u => ?_, h.msg, h.fin⟩
  by_cases hu : u = t
  · subst hu; show View.Known _ (setf μ.view u w u); rw [setf_self]; exact hw
  · show View.Known _ (setf μ.view t w u); rw [setf_ne _ _ hu]; exact h.view u

theorem Mem.Wf.loadRlx (h : μ.Wf) (hm : μ.hist l ts = some m) : (μ.loadRlx t l ts).Wf :=
  h.look ((h.view t).see ⟨m, hm⟩)

theorem Mem.Wf.loadAcq (h : μ.Wf) (hm : μ.hist l ts = some m) : (μ.loadAcq t l ts m).Wf :=
  h.look (((h.view t).see ⟨m, hm⟩).join (h.msg _ _ _ hm))

theorem Mem.Wf.read (h : μ.Wf) (d : N) : (μ.read t d).Wf := h.look ((h.view t).tick t)
theorem Mem.Wf.write (h : μ.Wf) (d : N) : (μ.write t d).Wf := h.look ((h.view t).tick t)
theorem Mem.Wf.other (h : μ.Wf) : (μ.other t).Wf := h.look ((h.view t).tick t)

/-- One more message: the history grows. -/
theorem grown (h : L → Nat → Option (Msg L V)) (l : L) (ts : Nat) (m : Msg L V) (k : L) (i : Nat) (m' : Msg L V)
    (hm : h k i = some m') : ∃ m'', (if k = l ∧ i = ts then some m else h k i) = some m'' := by
  split
  · exact ⟨_, rfl⟩
  · exact ⟨_, hm⟩

/-- A message is added and the thread knows it. -/
theorem Mem.Wf.addSee (h : μ.Wf) {w x : View L}
    (hw : w.Known fun k i => if k = l ∧ i = ts then some (⟨v, x⟩ : Msg L V) else μ.hist k i)
    (hx : x.Known fun k i => if k = l ∧ i = ts then some (⟨v, x⟩ : Msg L V) else μ.hist k i) {wr rd : N → Clock} :
    (Mem.add ⟨μ.hist, setf μ.view t w, wr, rd⟩ l ts ⟨v, x⟩).Wf := by
  have hg := grown μ.hist l ts ⟨v, x⟩
  refine ⟨fun u => ?_, ?_, ?_⟩
  · by_cases hu : u = t
    · subst hu; show View.Known _ (setf μ.view u w u); rw [setf_self]; exact hw
    · show View.Known _ (setf μ.view t w u); rw [setf_ne _ _ hu]; exact (h.view u).grow hg
  · intro k i m hm
    simp only [Mem.add] at hm
    split at hm
    · cases hm; exact hx
    · exact (h.msg _ _ _ hm).grow hg
  · intro k
    obtain ⟨n, hn⟩ := h.fin k
    refine ⟨max n (ts + 1), fun i hi => ?_⟩
    show (if _ then _ else _) = none
    rw [if_neg (by omega)]
    exact hn i (by omega)

theorem here (h : L → Nat → Option (Msg L V)) (m : Msg L V) :
    ∃ m', (if l = l ∧ ts = ts then some m else h l ts) = some m' := ⟨m, by simp⟩

theorem Mem.Wf.storeRel (h : μ.Wf) : (μ.storeRel t l ts v).Wf := by
  have hw : ((μ.view t).see l ts).Known
      fun k i => if k = l ∧ i = ts then some (⟨v, (μ.view t).see l ts⟩ : Msg L V) else μ.hist k i :=
    ((h.view t).grow (grown _ _ _ _)).see (here _ _)
  exact h.addSee hw hw

theorem bot_known {h' : L → Nat → Option (Msg L V)} (h0 : ∀ l, ∃ m, μ.hist l 0 = some m)
    (hg : ∀ l ts m, μ.hist l ts = some m → ∃ m', h' l ts = some m') : (View.bot : View L).Known h' := by
  intro k
  obtain ⟨m, hm⟩ := h0 k
  exact hg _ _ _ hm

theorem Mem.Wf.rmwRlx (h : μ.Wf) (hm : μ.hist l ts = some m) : (μ.rmwRlx t l ts m v).Wf :=
  h.addSee (((h.view t).grow (grown _ _ _ _)).see (here _ _)) ((h.msg _ _ _ hm).grow (grown _ _ _ _))

theorem Mem.Wf.rmwRel (h : μ.Wf) (hm : μ.hist l ts = some m) : (μ.rmwRel t l ts m v).Wf :=
  h.addSee (((h.view t).grow (grown _ _ _ _)).see (here _ _))
    ((((h.view t).grow (grown _ _ _ _)).see (here _ _)).join ((h.msg _ _ _ hm).grow (grown _ _ _ _)))

theorem Mem.Wf.rmwAcqRel (h : μ.Wf) (hm : μ.hist l ts = some m) : (μ.rmwAcqRel t l ts m v).Wf := by
  have hw := (((h.view t).grow (grown _ l (ts + 1) ⟨v, ((μ.view t).see l (ts + 1)).join m.view⟩)).see
    (here _ _)).join ((h.msg _ _ _ hm).grow (grown _ _ _ _))
  exact h.addSee hw hw

/-- The first message of every location stays. -/
def Mem.Based (μ : Mem L V N) : Prop := ∀ l, ∃ m, μ.hist l 0 = some m

theorem Mem.Based.init (v : L → V) : (Mem.init v : Mem L V N).Based := fun l => ⟨⟨v l, View.bot⟩, rfl⟩

theorem Mem.Based.add (h : μ.Based) : (μ.add l ts m).Based := by
  intro k
  obtain ⟨m', hm⟩ := h k
  exact grown _ _ _ _ _ _ _ hm

theorem Mem.Wf.storeRlx (h : μ.Wf) (hb : μ.Based) : (μ.storeRlx t l ts v).Wf :=
  h.addSee (((h.view t).grow (grown _ _ _ _)).see (here _ _)) (bot_known hb (grown _ _ _ _))

/-- There is always something to read … -/
theorem Mem.Wf.readable (h : μ.Wf) (t : Nat) (l : L) : ∃ ts m, μ.readable t l ts m := by
  obtain ⟨m, hm⟩ := h.view t l
  exact ⟨_, m, hm, Nat.le_refl _⟩

/-- … and room to write, … -/
theorem Mem.Wf.free (h : μ.Wf) (t : Nat) (l : L) : ∃ ts, μ.free t l ts := by
  obtain ⟨n, hn⟩ := h.fin l
  exact ⟨max n ((μ.view t).ts l + 1), hn _ (by omega), by omega⟩

/-- … also right after a message that can be read. -/
theorem Mem.Wf.last (h : μ.Wf) (t : Nat) (l : L) : ∃ ts m, μ.readable t l ts m ∧ μ.hist l (ts + 1) = none := by
  obtain ⟨n, hn⟩ := h.fin l
  have key : ∀ k ts m, ts + k = n → μ.readable t l ts m →
      ∃ ts m, μ.readable t l ts m ∧ μ.hist l (ts + 1) = none := by
    intro k
    induction k with
    | zero => intro ts m e hr; have := hr.1; rw [hn ts (by omega)] at this; cases this
    | succ k ih =>
      intro ts m e hr
      cases hx : μ.hist l (ts + 1) with
      | none => exact ⟨ts, m, hr, hx⟩
      | some m' => exact ih (ts + 1) m' (by omega) ⟨hx, Nat.le_succ_of_le hr.2⟩
  obtain ⟨ts, m, hr⟩ := h.readable t l
  have hlt : ts < n := by
    rcases Nat.lt_or_ge ts n with h' | h'
    · exact h'
    · have := hr.1; rw [hn ts h'] at this; cases this
  exact key (n - ts) ts m (by omega) hr

end Phosphor.Weak
