import Verif.Props.LocksWeakProgress
import Verif.Props.LocksWeakRuns
/-
C114: a thread that has read the newest start in `enabled` does not give up its chunk lock because of an earlier stop.
-/
namespace Phosphor.TLog.W
open Phosphor.Weak

/-- The lock word of `u` has been `MasterLocked` at `ts`. -/
def Mastered (w : St) (u ts : Nat) : Prop := ∃ m, w.mem.hist (lockAt u) ts = some m ∧ m.val = 2

/-- Evicting `u`, with its chunk lock. -/
def Evicting (p : Pc) (u : Nat) : Prop := ∃ k d, p = .evClear k d u ∨ p = .evUnlock k d u

/-- Who knows that the chunk locks have been released by evictions. -/
structure Freed (w : St) : Prop where
  free : w.mutex = none → ∀ {u ts}, Mastered w u ts → ts < w.mview.ts (lockAt u)
  held : ∀ {t}, w.mutex = some t → ∀ {u ts}, Mastered w u ts → ¬ Evicting (w.pc t) u → ts < (w.mem.view t).ts (lockAt u)
  ev : ∀ {t}, w.mutex = some t → ∀ {u ts}, Mastered w u ts → ts ≤ (w.mem.view t).ts (lockAt u)
  on : ∀ {ts m}, w.mem.hist .en ts = some m → m.val ≠ 0 → (∀ ts' m', w.mem.hist .en ts' = some m' → ts' ≤ ts) →
    ∀ {u i}, Mastered w u i → i < m.view.ts (lockAt u)

theorem Freed.keep' {a x : St} (h : Freed a) (hd : ∀ {u ts}, Mastered x u ts → Mastered a u ts)
    (hm : x.mutex = a.mutex) (hv : x.mview = a.mview) (hp : ∀ t u, Evicting (a.pc t) u → Evicting (x.pc t) u)
    (hw : ∀ t l, (a.mem.view t).ts l ≤ (x.mem.view t).ts l)
    (h1 : ∀ ts m, x.mem.hist .en ts = some m → m.val ≠ 0 → a.mem.hist .en ts = some m)
    (h2 : ∀ ts m, a.mem.hist .en ts = some m → ∃ m', x.mem.hist .en ts = some m') : Freed x := by
  refine ⟨fun e u ts d => ?_, fun {t} e u ts d n => ?_, fun {t} e u ts d => ?_, fun {ts m} b c n u i d => ?_⟩
  · rw [hv]; exact h.free (hm ▸ e) (hd d)
  · exact Nat.lt_of_lt_of_le (h.held (hm ▸ e) (hd d) fun y => n (hp t u y)) (hw t _)
  · exact Nat.le_trans (h.ev (hm ▸ e) (hd d)) (hw t _)
  · refine h.on (h1 _ _ b c) c (fun ts' m' y => ?_) (hd d)
    obtain ⟨m'', y⟩ := h2 _ _ y
    exact n _ _ y

theorem Freed.keep {a x : St} (h : Freed a) (hh : ∀ u, x.mem.hist (lockAt u) = a.mem.hist (lockAt u))
    (hm : x.mutex = a.mutex) (hv : x.mview = a.mview) (hp : ∀ t u, Evicting (a.pc t) u → Evicting (x.pc t) u)
    (hw : ∀ t l, (a.mem.view t).ts l ≤ (x.mem.view t).ts l)
    (h1 : ∀ ts m, x.mem.hist .en ts = some m → m.val ≠ 0 → a.mem.hist .en ts = some m)
    (h2 : ∀ ts m, a.mem.hist .en ts = some m → ∃ m', x.mem.hist .en ts = some m') : Freed x :=
  h.keep' (by rintro u ts ⟨m, b, c⟩; rw [hh] at b; exact ⟨m, b, c⟩) hm hv hp hw h1 h2

theorem evicting_setf {f : Nat → Pc} {t : Nat} {p : Pc} (h : ∀ u, Evicting (f t) u → Evicting p u) (s u : Nat) :
    Evicting (f s) u → Evicting (setf f t p s) u := by
  intro y
  by_cases e : s = t
  · subst e; rw [setf_self]; exact h u y
  · rw [setf_ne _ _ e]; exact y

theorem not_evicting {p : Pc} (h : (∀ k d u, p ≠ .evClear k d u) ∧ ∀ k d u, p ≠ .evUnlock k d u) (q : Pc) (u : Nat) :
    Evicting p u → Evicting q u := by
  rintro ⟨k, d, e | e⟩
  · exact absurd e (h.1 k d u)
  · exact absurd e (h.2 k d u)

/-- Every thread knows at least as much. -/
def Grow (μ μ' : Mem Loc Nat Plain) : Prop := ∀ s l, (μ.view s).ts l ≤ (μ'.view s).ts l

theorem grows {μ μ' : Mem Loc Nat Plain} {t : Nat} {v : View Loc} (h : VLe (μ.view t) v)
    (e : μ'.view = setf μ.view t v := by rfl) : Grow μ μ' := by
  intro s l; rw [e]; exact (vle_setf h s).1 l

theorem Grow.trans {a b c : Mem Loc Nat Plain} (h : Grow a b) (k : Grow b c) : Grow a c := fun s l =>
  Nat.le_trans (h s l) (k s l)

theorem grow_read (μ : Mem Loc Nat Plain) (t : Nat) (d : Plain) : Grow μ (μ.read t d) := grows (vle_tick _ _)

theorem grow_write (μ : Mem Loc Nat Plain) (t : Nat) (d : Plain) : Grow μ (μ.write t d) := grows (vle_tick _ _)

theorem grow_load (μ : Mem Loc Nat Plain) (t : Nat) (l : Loc) (ts : Nat) (m : Msg Loc Nat) : Grow μ (μ.loadAcq t l ts m) :=
  grows ((vle_see _ _ _).trans (vle_left _ _))

theorem grow_rmw (μ : Mem Loc Nat Plain) (t : Nat) (l : Loc) (ts : Nat) (m : Msg Loc Nat) (v : Nat) :
    Grow μ (μ.rmwAcqRel t l ts m v) := grows ((vle_see _ _ _).trans (vle_left _ _))

theorem grow_store (μ : Mem Loc Nat Plain) (t : Nat) (l : Loc) (ts : Nat) (v : Nat) :
    Grow μ (μ.storeRel t l ts v) := grows (vle_see _ _ _)

theorem grow_learn (μ : Mem Loc Nat Plain) (t : Nat) (v : View Loc) : Grow μ (learn μ t v) := grows (vle_left _ _)

theorem freed_other {a x : St} (hs : Step true a x) (h : Freed a) (hl : ∀ u, a.lk u = some 0) (hl' : x.lk = a.lk)
    (hh : ∀ u, x.mem.hist (lockAt u) = a.mem.hist (lockAt u)) (hi : ∀ t, inM (a.pc t) = true → a.mutex = some t) :
    Freed x := by
  cases hs with
  | tryOk _ hk => rw [hl] at hk; cases hk
  | evLock _ _ hk => rw [hl] at hk; cases hk
  | @unlock t => have := congrFun hl' t; simp [hl, setf] at this
  | @evUnlock t k d u => have := congrFun hl' u; simp [hl, setf] at this
  | @lockM t hq hn =>
    have hd : ∀ {u ts}, Mastered a u ts → ts < ((a.mem.view t).join a.mview).ts (lockAt u) := fun d =>
      Nat.lt_of_lt_of_le (h.free hn d) (Nat.le_max_right _ _)
    refine ⟨nofun, fun {s} e u ts d _ => ?_, fun {s} e u ts d => ?_, fun b c n u i d => h.on b c n d⟩
    · injection e with e; subst e
      simpa [learn, St.goto, setf] using hd (u := u) (ts := ts) d
    · injection e with e; subst e
      simpa [learn, St.goto, setf] using Nat.le_of_lt (hd (u := u) (ts := ts) d)
  | @unlockM t hq =>
    have hm := hi t (by rw [hq]; rfl)
    refine ⟨fun _ u ts d => h.held hm d ?_, nofun, nofun, fun b c n u i d => h.on b c n d⟩
    rw [hq]; rintro ⟨k, d, y | y⟩ <;> cases y
  | @turnOn t d ts hq hf =>
    have hm := hi t (by rw [hq]; rfl)
    have hne : ∀ u, ¬ Evicting (a.pc t) u := by rw [hq]; rintro u ⟨k, d, y | y⟩ <;> cases y
    have hd : ∀ {u i}, Mastered (a.goto t (.crit d) ((a.mem.write t .cfg).storeRel t .en ts 1)) u i → Mastered a u i := by
      rintro u i ⟨m, b, c⟩; exact ⟨m, (congrFun (hh u) i).symm.trans b, c⟩
    have hv : ∀ u, (((a.mem.write t .cfg).storeRel t .en ts 1).view t).ts (lockAt u) = (a.mem.view t).ts (lockAt u) := by
      intro u; simp [Mem.storeRel, Mem.write, Mem.add, setf, View.see, View.tick, lockAt]
    refine ⟨fun e => ?_, fun {s} e u i y _ => ?_, fun {s} e u i y => ?_, fun {i m} b c n u j y => ?_⟩
    · rw [show a.mutex = none from e] at hm; cases hm
    · rw [show a.mutex = some s from e] at hm; injection hm with hm; subst hm
      exact Nat.lt_of_lt_of_le (h.held e (hd y) (hne u)) (Nat.le_of_eq (hv u).symm)
    · rw [show a.mutex = some s from e] at hm; injection hm with hm; subst hm
      exact Nat.le_trans (h.ev e (hd y)) (Nat.le_of_eq (hv u).symm)
    · have hj := h.held hm (hd y) (hne u)
      by_cases e : i = ts
      · subst e
        have : m.view.ts (lockAt u) = (a.mem.view t).ts (lockAt u) := by
          simp [St.goto, Mem.storeRel, Mem.write, Mem.add] at b
          rw [← b]; simp [View.see, View.tick, lockAt]
        rw [this]; exact hj
      · have keep : ∀ k, k ≠ ts → (a.goto t (.crit d) ((a.mem.write t .cfg).storeRel t .en ts 1)).mem.hist .en k = a.mem.hist .en k := by
          intro k hk; simp [St.goto, Mem.storeRel, Mem.write, Mem.add, hk]
        refine h.on ((keep i e).symm.trans b) c (fun k m' hk => n k m' ?_) (hd y)
        rw [keep k fun e => ?_]
        · exact hk
        · subst e; rw [hf.1] at hk; cases hk
  | @exchangeOff t k d ts m hq hr hn hz =>
    refine h.keep hh rfl rfl (evicting_setf fun u => by rw [hq]; exact not_evicting (by simp) _ u) (grow_rmw _ _ _ _ _ _) ?_ ?_
    · intro i m' b c
      by_cases e : i = ts + 1
      · subst e; simp [St.goto, Mem.rmwAcqRel, Mem.add] at b; rw [← b] at c; exact absurd rfl c
      · simpa [St.goto, Mem.rmwAcqRel, Mem.add, e] using b
    · intro i m' b
      by_cases e : i = ts + 1
      · subst e; rw [hn] at b; cases b
      · exact ⟨m', by simpa [St.goto, Mem.rmwAcqRel, Mem.add, e] using b⟩
  | @exchangeOn t k d ts m hq hr hn hz =>
    refine h.keep hh rfl rfl (evicting_setf fun u => by rw [hq]; exact not_evicting (by simp) _ u) ((grow_rmw _ _ _ _ _ _).trans (grow_read _ _ _)) ?_ ?_
    · intro i m' b c
      by_cases e : i = ts + 1
      · subst e; simp [St.goto, Mem.rmwAcqRel, Mem.read, Mem.add] at b; rw [← b] at c; exact absurd rfl c
      · simpa [St.goto, Mem.rmwAcqRel, Mem.read, Mem.add, e] using b
    · intro i m' b
      by_cases e : i = ts + 1
      · subst e; rw [hn] at b; cases b
      · exact ⟨m', by simpa [St.goto, Mem.rmwAcqRel, Mem.read, Mem.add, e] using b⟩
  | @extStore t n ts v hf =>
    refine h.keep hh rfl rfl (fun _ _ y => y) (grows (vle_see _ _ _)) ?_ ?_
    · intro i m' b _; simpa [Mem.storeRel, Mem.add] using b
    · intro i m' b; exact ⟨m', by simpa [Mem.storeRel, Mem.add] using b⟩
  | evClear hq =>
    refine h.keep hh rfl rfl (evicting_setf fun u => ?_) (grows (vle_tick _ _)) (fun _ _ b _ => b) (fun _ m b => ⟨m, b⟩)
    rw [hq]; rintro ⟨k, d, e | e⟩
    · injection e with e1 e2 e3; subst e3; exact ⟨_, _, .inr rfl⟩
    · cases e
  | other => exact h.keep hh rfl rfl (fun _ _ y => y) (grows (vle_tick _ _)) (fun _ _ b _ => b) (fun _ m b => ⟨m, b⟩)
  | extLoad =>
    exact h.keep hh rfl rfl (fun _ _ y => y) (grows ((vle_see _ _ _).trans (vle_left _ _))) (fun _ _ b _ => b)
      (fun _ m b => ⟨m, b⟩)
  | newBuf _ _ hq =>
    exact h.keep hh rfl rfl (evicting_setf fun u => by rw [hq]; exact not_evicting (by simp) _ u) (grows (vle_tick _ _))
      (fun _ _ b _ => b) (fun _ m b => ⟨m, b⟩)
  | ownRead =>
    exact h.keep hh rfl rfl (fun _ _ y => y) ((grow_read _ _ _).trans (grow_read _ _ _)) (fun _ _ b _ => b)
      (fun _ m b => ⟨m, b⟩)
  | ownGive => exact h.keep hh rfl rfl (fun _ _ y => y) (grow_learn _ _ _) (fun _ _ b _ => b) (fun _ m b => ⟨m, b⟩)
  | ownFree => exact h.keep hh rfl rfl (fun _ _ y => y) (grows (vle_tick _ _)) (fun _ _ b _ => b) (fun _ m b => ⟨m, b⟩)
  | _ hq =>
    refine h.keep hh rfl rfl (evicting_setf fun u => by rw [hq]; exact not_evicting (by simp) _ u) ?_ (fun _ _ b _ => b)
      (fun _ m b => ⟨m, b⟩)
    first
    | exact fun _ _ => Nat.le_refl _
    | exact grows (vle_tick _ _)
    | exact grows ((vle_see _ _ _).trans (vle_left _ _))
    | exact (grow_read _ _ _).trans (grow_read _ _ _)
    | exact (grow_read _ _ _).trans (grow_write _ _ _)
    | exact (grow_read _ _ _).trans (grow_learn _ _ _)
    | exact ((grow_read _ _ _).trans (grow_read _ _ _)).trans (grow_read _ _ _)

/-- A message other than `MasterLocked` in a lock word. -/
theorem mastered_add {μ μ' : Mem Loc Nat Plain} {v ts : Nat} {m : Msg Loc Nat} (hm : m.val ≠ 2)
    (e : μ'.hist = fun k i => if k = lockAt v ∧ i = ts then some m else μ.hist k i) {u i : Nat} :
    (∃ x, μ'.hist (lockAt u) i = some x ∧ x.val = 2) → ∃ x, μ.hist (lockAt u) i = some x ∧ x.val = 2 := by
  rintro ⟨x, b, c⟩
  rw [e] at b
  by_cases hk : lockAt u = lockAt v ∧ i = ts
  · simp only [hk, and_self, if_true] at b
    injection b with b; rw [b] at hm; exact absurd c hm
  · simp only [hk, if_false] at b; exact ⟨x, b, c⟩

theorem en_add {μ μ' : Mem Loc Nat Plain} {v ts : Nat} {m : Msg Loc Nat}
    (e : μ'.hist = fun k i => if k = lockAt v ∧ i = ts then some m else μ.hist k i) : μ'.hist .en = μ.hist .en := by
  rw [e]; funext i; simp [lockAt]

theorem inM_mutex {w : St} (h : LReachable w) {t : Nat} (ht : inM (w.pc t) = true) : w.mutex = some t := by
  obtain ⟨lk, lview, gd⟩ := good h
  obtain ⟨g, hg⟩ := inv_reachable gd.1
  have := hg.pcs t
  rw [show (w.with lk lview).pc t = w.pc t from rfl] at this
  cases hp : w.pc t <;> rw [hp] at this ht <;> first | exact this.1 | exact this.1.1 | cases ht

theorem off_of_evict {w : St} (h : LReachable w) {t : Nat} {k : Bool} {d : Nat}
    (ht : w.pc t = .evict k d ∨ ∃ u, w.pc t = .evUnlock k d u) {ts : Nat} {m : Msg Loc Nat} (hm : w.mem.hist .en ts = some m)
    (hn : ∀ ts' m', w.mem.hist .en ts' = some m' → ts' ≤ ts) : m.val = 0 := by
  obtain ⟨lk, lview, gd⟩ := good h
  obtain ⟨g, hg⟩ := inv_reachable gd.1
  have ho : g.on = false := by
    rcases ht with x | ⟨u, x⟩
    · exact (hg.here (μ := w.mem) (w := w.with lk lview) x).2.1
    · exact (hg.here (μ := w.mem) (w := w.with lk lview) x).2.1
  obtain ⟨v, e, -⟩ := hg.enTop
  have e : w.mem.hist .en g.top = some _ := e
  have : ts = g.top := Nat.le_antisymm (hg.enMax ts m hm) (hn _ _ e)
  subst this
  rw [e] at hm; injection hm with hm; rw [← hm, ho]; rfl

theorem lock_inj {u v : Nat} (h : lockAt u = lockAt v) : u = v := by
  unfold lockAt at h; injection h with h; omega

theorem freed_unlock {w w' : St} (hr : LReachable w) (h : Freed w) {t u d : Nat} {k : Bool} (hq : w.pc t = .evUnlock k d u)
    (hd : ∀ {v i}, Mastered w' v i → Mastered w v i) (hm' : w'.mutex = w.mutex) (hp : w'.pc = setf w.pc t (.evict k d))
    (e : w'.mem.hist .en = w.mem.hist .en) (hg : Grow w.mem w'.mem)
    (hv : (w.mem.view t).ts (lockAt u) < (w'.mem.view t).ts (lockAt u)) : Freed w' := by
  have hm := inM_mutex hr (t := t) (by rw [hq]; rfl)
  rw [← hm'] at hm
  refine ⟨fun y => ?_, fun {s} y v i x n => ?_, fun {s} y v i x => ?_, fun {i m'} b c n v j x => ?_⟩
  · rw [y] at hm; cases hm
  · have y' := y
    rw [y] at hm; injection hm with hm; subst hm
    by_cases hu : v = u
    · subst hu; exact Nat.lt_of_le_of_lt (h.ev (hm' ▸ y) (hd x)) hv
    · refine Nat.lt_of_lt_of_le (h.held (hm' ▸ y) (hd x) ?_) (hg _ _)
      rw [hq]; rintro ⟨_, _, z | z⟩
      · cases z
      · injection z with _ _ z; exact hu z.symm
  · exact Nat.le_trans (h.ev (hm' ▸ y) (hd x)) (hg _ _)
  · rw [e] at b n; exact h.on b c n (hd x)

theorem freed_step {w w' : St} (hr : LReachable w) (h : Freed w) (hs : LStep w w') : Freed w' := by
  cases hs with
  | other hs hh =>
    have f := freed_other (hs (fun _ => some 0) fun _ => View.bot) ⟨h.free, h.held, h.ev, h.on⟩ (fun _ => rfl) rfl hh
      fun t ht => inM_mutex hr ht
    exact ⟨f.free, f.held, f.ev, f.on⟩
  | @tryOk t ts m hq =>
    have e := en_add (μ := w.mem) (μ' := w.mem.rmwAcqRel t (lockAt t) ts m 1) rfl
    exact h.keep' (mastered_add (by simp) rfl) rfl rfl (evicting_setf fun u => by rw [hq]; exact not_evicting (by simp) _ u)
      (grow_rmw _ _ _ _ _ _) (fun _ _ b _ => (congrFun e _).symm.trans b) (fun _ m b => ⟨m, (congrFun e _).trans b⟩)
  | @unlockD t ts m hq =>
    have e := en_add (μ := w.mem) (μ' := w.mem.rmwAcqRel t (lockAt t) ts m 0) rfl
    exact h.keep' (mastered_add (by simp) rfl) rfl rfl (evicting_setf fun u => by rw [hq]; exact not_evicting (by simp) _ u)
      (grow_rmw _ _ _ _ _ _) (fun _ _ b _ => (congrFun e _).symm.trans b) (fun _ m b => ⟨m, (congrFun e _).trans b⟩)
  | @unlock t ts hq =>
    have e := en_add (μ := w.mem) (μ' := w.mem.storeRel t (lockAt t) ts 0) rfl
    exact h.keep' (mastered_add (by simp) rfl) rfl rfl (evicting_setf fun u => by rw [hq]; exact not_evicting (by simp) _ u)
      (grow_store _ _ _ _ _) (fun _ _ b _ => (congrFun e _).symm.trans b) (fun _ m b => ⟨m, (congrFun e _).trans b⟩)
  | tryAgain hq =>
    exact h.keep (fun _ => rfl) rfl rfl (evicting_setf fun u => by rw [hq]; exact not_evicting (by simp) _ u)
      (grow_load _ _ _ _ _) (fun _ _ b _ => b) (fun _ m b => ⟨m, b⟩)
  | tryFail hq =>
    exact h.keep (fun _ => rfl) rfl rfl (evicting_setf fun u => by rw [hq]; exact not_evicting (by simp) _ u)
      (grow_load _ _ _ _ _) (fun _ _ b _ => b) (fun _ m b => ⟨m, b⟩)
  | evAgain hq =>
    exact h.keep (fun _ => rfl) rfl rfl (evicting_setf fun u => by rw [hq]; exact not_evicting (by simp) _ u)
      (grow_load _ _ _ _ _) (fun _ _ b _ => b) (fun _ m b => ⟨m, b⟩)
  | @evLock t k d u ts m hq hp hrd hn hz =>
    have hm := inM_mutex hr (t := t) (by rw [hq]; rfl)
    have e := en_add (μ := w.mem) (μ' := w.mem.rmwAcqRel t (lockAt u) ts m 2) rfl
    have hd : ∀ {v i}, Mastered (w.goto t (.evClear k d u) (w.mem.rmwAcqRel t (lockAt u) ts m 2)) v i →
        Mastered w v i ∨ (v = u ∧ i = ts + 1) := by
      rintro v i ⟨x, b, c⟩
      by_cases hk : v = u ∧ i = ts + 1
      · exact .inr hk
      · refine .inl ⟨x, ?_, c⟩
        have : ¬ (lockAt v = lockAt u ∧ i = ts + 1) := fun y => hk ⟨lock_inj y.1, y.2⟩
        simpa only [St.goto, Mem.rmwAcqRel, Mem.add, this, if_false] using b
    refine ⟨fun y => ?_, fun {s} y v i x n => ?_, fun {s} y v i x => ?_, fun {i m'} b c n v j x => ?_⟩
    · rw [show w.mutex = none from y] at hm; cases hm
    · rw [show w.mutex = some s from y] at hm; injection hm with hm; subst hm
      have hv : v ≠ u := by
        rintro rfl; exact n ⟨k, d, .inl (setf_self _ _ _)⟩
      rcases hd x with x | x
      · refine Nat.lt_of_lt_of_le (h.held y x ?_) (grow_rmw _ _ _ _ _ _ _ _)
        rw [hq]; rintro ⟨_, _, z | z⟩ <;> cases z
      · exact absurd x.1 hv
    · rw [show w.mutex = some s from y] at hm; injection hm with hm; subst hm
      rcases hd x with x | ⟨rfl, rfl⟩
      · exact Nat.le_trans (h.ev y x) (grow_rmw _ _ _ _ _ _ _ _)
      · simp [St.goto, Mem.rmwAcqRel, Mem.add, setf, View.join, View.see]
    · exact absurd (off_of_evict hr (.inl hq) ((congrFun e _).symm.trans b)
        fun i' x' y => n i' x' ((congrFun e _).trans y)) c
  | @evUnlock t k d u ts hq hf =>
    refine freed_unlock hr h hq (mastered_add (μ := w.mem) (by simp) rfl) rfl rfl (en_add rfl) (grow_store _ _ _ _ _) ?_
    have := hf.2
    simp [St.goto, Mem.storeRel, Mem.add, setf, View.see]; omega
  | @evUnlockD t k d u ts m hq hrd hn hz =>
    refine freed_unlock hr h hq (mastered_add (μ := w.mem) (by simp) rfl) rfl rfl (en_add rfl) (grow_rmw _ _ _ _ _ _) ?_
    have := hrd.2
    simp [St.goto, Mem.rmwAcqRel, Mem.add, setf, View.join, View.see]; omega

theorem freed {w : St} (h : LReachable w) : Freed w := by
  induction h with
  | init =>
    have : ∀ u ts, ¬ Mastered St.init u ts := by
      rintro u ts ⟨m, b, c⟩
      by_cases e : ts = 0
      · simp [St.init, Mem.init, e] at b; rw [← b] at c; cases c
      · simp [St.init, Mem.init, e] at b
    exact ⟨fun _ _ _ x => absurd x (this _ _), fun _ _ _ x => absurd x (this _ _), fun _ _ _ x => absurd x (this _ _),
      fun _ _ _ _ _ x => absurd x (this _ _)⟩
  | step hr hs ih => exact freed_step hr ih hs

theorem step_grow {a x : St} (hs : Step true a x) : Grow a.mem x.mem := by
  cases hs <;> first
    | exact fun _ _ => Nat.le_refl _
    | exact grows (vle_tick _ _)
    | exact grow_load _ _ _ _ _
    | exact grow_store _ _ _ _ _
    | exact grow_rmw _ _ _ _ _ _
    | exact grow_learn _ _ _
    | exact (grow_read _ _ _).trans (grow_read _ _ _)
    | exact (grow_read _ _ _).trans (grow_write _ _ _)
    | exact (grow_read _ _ _).trans (grow_learn _ _ _)
    | exact (grow_write _ _ _).trans (grow_store _ _ _ _ _)
    | exact (grow_rmw _ _ _ _ _ _).trans (grow_read _ _ _)
    | exact ((grow_read _ _ _).trans (grow_read _ _ _)).trans (grow_read _ _ _)

theorem lstep_grow {w w' : St} (hs : LStep w w') : Grow w.mem w'.mem := by
  cases hs with
  | other hs =>
    have := step_grow (hs w.lk w.lview)
    exact this
  | tryOk => exact grow_rmw _ _ _ _ _ _
  | tryAgain => exact grow_load _ _ _ _ _
  | tryFail => exact grow_load _ _ _ _ _
  | unlock => exact grow_store _ _ _ _ _
  | unlockD => exact grow_rmw _ _ _ _ _ _
  | evLock => exact grow_rmw _ _ _ _ _ _
  | evAgain => exact grow_load _ _ _ _ _
  | evUnlock => exact grow_store _ _ _ _ _
  | evUnlockD => exact grow_rmw _ _ _ _ _ _

theorem on_hists {w w' : St} (h : Reachable true w) (ho : ¬ w.off) (r : On w w') :
    w'.mem.hist .en = w.mem.hist .en ∧ ¬ w'.off ∧ Reachable true w' := by
  induction r with
  | refl => exact ⟨rfl, ho, h⟩
  | step _ hs h1 ih => exact ⟨(on_hist ih.2.2 ih.2.1 hs h1).trans ih.1, h1, ih.2.2.step hs⟩

theorem lon_hist {w w' : St} (h : LReachable w) (ho : ¬ w.off) (r : LOn w w') : w'.mem.hist .en = w.mem.hist .en := by
  obtain ⟨_, _, g⟩ := good h
  obtain ⟨_, _, -, r, -⟩ := sim_on g ho r
  exact (on_hists g.1 ho r).1

theorem lon_grow {w w' : St} (h : LReachable w) (r : LOn w w') : Grow w.mem w'.mem ∧ LReachable w' := by
  induction r with
  | refl => exact ⟨fun _ _ => Nat.le_refl _, h⟩
  | step _ hs _ ih => exact ⟨ih.1.trans (lstep_grow hs), ih.2.step hs⟩

/-- C114: a thread that has all that the newest start passed on reads `MasterLocked` in no lock word. -/
theorem C114_word {w : St} (h : LReachable w) {ts : Nat} {m : Msg Loc Nat} (hm : w.mem.hist .en ts = some m)
    (h1 : m.val ≠ 0) (hn : ∀ ts' m', w.mem.hist .en ts' = some m' → ts' ≤ ts) {t u : Nat}
    (hv : ∀ l, m.view.ts l ≤ (w.mem.view t).ts l) {i : Nat} {x : Msg Loc Nat} (hr : w.mem.readable t (lockAt u) i x) :
    x.val ≠ 2 := by
  intro hx
  have := (freed h).on hm h1 hn ⟨x, hr.1, hx⟩
  have := hv (lockAt u)
  have := hr.2
  omega

/-- C114: a thread that reads the newest start when it begins to log does not give up its chunk lock as long as tracing
stays on, so its event is not dropped because of an earlier stop: a try takes the lock or is made again. -/
theorem C114_keeps {w w' w'' : St} (h : LReachable w) {t ts : Nat} {m : Msg Loc Nat} (hq : w.pc t = .idle)
    (hm : w.mem.readable t .en ts m) (h1 : m.val ≠ 0) (hn : ∀ ts' m', w.mem.hist .en ts' = some m' → ts' ≤ ts)
    (r : LOn (w.goto t .tryLock (w.mem.loadAcq t .en ts m)) w') (hq' : w'.pc t = .tryLock) (hs : LStep w' w'') :
    w''.pc t = .tryLock ∨ w''.pc t = .locked := by
  have s1 : LStep w (w.goto t .tryLock (w.mem.loadAcq t .en ts m)) :=
    .other (fun _ _ => .logOn hq hm h1) (fun _ => rfl) (fun s y => by
      have : s ≠ t := fun e => by subst e; rw [hq] at y; cases y
      exact (setf_ne _ _ this).trans y) rfl rfl
  have h' := h.step s1
  have ho : ¬ (w.goto t .tryLock (w.mem.loadAcq t .en ts m)).off := by
    rintro ⟨ts0, m0, a, b, c⟩
    have e : ts = ts0 := Nat.le_antisymm (c ts m hm.1) (hn ts0 m0 a)
    subst e
    have a : w.mem.hist .en ts = some m0 := a
    rw [hm.1] at a; injection a with a; subst a; exact h1 b
  have e := lon_hist h' ho r
  have e : w'.mem.hist .en = w.mem.hist .en := e
  obtain ⟨hg, hr⟩ := lon_grow h' r
  have hv : ∀ l, m.view.ts l ≤ (w'.mem.view t).ts l := fun l => by
    refine Nat.le_trans ?_ (hg t l)
    simp [St.goto, Mem.loadAcq, setf, View.join]
  have key : ∀ {s : Nat} {p : Pc}, w''.pc = setf w'.pc s p → (s = t → p = .tryLock ∨ p = .locked) →
      w''.pc t = .tryLock ∨ w''.pc t = .locked := by
    intro s p y z
    by_cases hst : s = t
    · subst hst; rw [y, setf_self]; exact z rfl
    · rw [y, setf_ne _ _ (Ne.symm hst)]; exact .inl hq'
  cases hs with
  | other _ _ hp => exact .inl (hp t hq')
  | tryOk => exact key rfl fun _ => .inr rfl
  | tryAgain => exact key rfl fun _ => .inl rfl
  | @tryFail s i x _ hrd hx =>
    refine key rfl fun y => ?_
    subst y
    exact absurd hx (C114_word hr (ts := ts) (m := m) (by rw [e]; exact hm.1) h1 (by rw [e]; exact hn) hv hrd)
  | unlock y => exact key rfl fun z => by subst z; rw [hq'] at y; cases y
  | unlockD y => exact key rfl fun z => by subst z; rw [hq'] at y; cases y
  | evLock y => exact key rfl fun z => by subst z; rw [hq'] at y; cases y
  | evAgain y => exact key rfl fun z => by subst z; rw [hq'] at y; cases y
  | evUnlock y => exact key rfl fun z => by subst z; rw [hq'] at y; cases y
  | evUnlockD y => exact key rfl fun z => by subst z; rw [hq'] at y; cases y

theorem LFitting.done {n : Nat} {w : St} (r : LFitting n w) {t d : Nat} (hq : w.pc t = .evict false d)
    (hp : ∀ u, w.pend u = false) : LFitting n (w.goto t (.crit d) (w.mem.read t .cfg)) := by
  refine r.step (.other (fun _ _ => .evDone (k := false) hq hp) (fun _ => rfl) (fun s y => ?_) rfl rfl)
    ⟨r.fits.few, r.fits.room⟩
  have : s ≠ t := fun e => by subst e; rw [hq] at y; cases y
  exact (setf_ne _ _ this).trans y

/-- A case: tracing has been started, stopped with an eviction of thread 1 and started again; thread 1, in no call, can read
the new start. -/
theorem exAgain : ∃ (w : St) (m : Msg Loc Nat), LReachable w ∧ w.pc 1 = .idle ∧ Mastered w 1 1 ∧ w.mem.readable 1 .en 3 m ∧ m.val ≠ 0 ∧
    ∀ ts' m', w.mem.hist .en ts' = some m' → ts' ≤ 3 := by
  have r := LFitting.init (n := 2)
  have r := r.go (.lockM (t := 0) rfl rfl) (t := 0) (q := .idle) (p := .crit 0) rfl rfl (by simp) (by simp) rfl rfl
  have r := r.go (.start (t := 0) rfl (fun _ => rfl)) (t := 0) (q := .crit 0) (p := .start 0) rfl rfl (by simp) (by simp) rfl rfl
  have r := r.go (.startOff (t := 0) (ts := 0) rfl ⟨rfl, by decide⟩ rfl) (t := 0) (q := .start 0) (p := .newBuf 0) rfl rfl (by simp) (by simp) rfl rfl
  have r := r.goF (.newBuf (t := 0) true 2 rfl) (t := 0) (q := .newBuf 0) (p := .turnOn 0) rfl rfl (by simp) (by simp) ⟨r.fits.few, fun b => by
    by_cases e : b = 0
    · subst e; exact fun _ => Nat.le_refl 2
    · intro hb; simp [St.with, St.goto, St.init, setf, e] at hb⟩
  have r := r.go (.turnOn (t := 0) (ts := 1) rfl ⟨rfl, by decide⟩) (t := 0) (q := .turnOn 0) (p := .crit 0) rfl rfl (by simp) (by simp) rfl rfl
  have r := r.go (.unlockM (t := 0) rfl) (t := 0) (q := .crit 0) (p := .idle) rfl rfl (by simp) (by simp) rfl rfl
  have r := r.go (.lockM (t := 1) rfl rfl) (t := 1) (q := .idle) (p := .crit 0) rfl rfl (by simp) (by simp) rfl rfl
  have r := r.register (t := 1) rfl rfl (by decide)
  have r := r.go (.unlockM (t := 1) rfl) (t := 1) (q := .crit 0) (p := .idle) rfl rfl (by simp) (by simp) rfl rfl
  have r := r.go (.lockM (t := 0) rfl rfl) (t := 0) (q := .idle) (p := .crit 0) rfl rfl (by simp) (by simp) rfl rfl
  have r := r.go (.stop (t := 0) (d := 0) rfl) (t := 0) (q := .crit 0) (p := .exchange false 0) rfl rfl (by simp) (by simp) rfl rfl
  have r := r.goF (.exchangeOn (t := 0) (ts := 1) rfl ⟨rfl, by decide +kernel⟩ rfl (by decide +kernel)) (t := 0) (q := .exchange false 0) (p := .evict false 0) rfl rfl (by simp) (by simp) ⟨r.fits.few, r.fits.room⟩
  have r := r.step (.evLock (t := 0) (u := 1) (ts := 0) rfl rfl ⟨rfl, by decide +kernel⟩ rfl rfl) ⟨r.fits.few, r.fits.room⟩
  have r := r.goF (.evClear (t := 0) (u := 1) rfl) (t := 0) (q := .evClear false 0 1) (p := .evUnlock false 0 1) rfl rfl (by simp) (by simp) ⟨r.fits.few, r.fits.room⟩
  have r := r.step (.evUnlock (t := 0) (u := 1) (ts := 2) rfl ⟨rfl, by decide +kernel⟩) ⟨r.fits.few, r.fits.room⟩
  have r := r.done (t := 0) (d := 0) rfl fun u => by
    by_cases e : u = 1
    · subst e; rfl
    · simp [St.with, St.goto, St.init, setf, e]
  have r := r.goF (.start (t := 0) (d := 0) rfl (fun _ => rfl)) (t := 0) (q := .crit 0) (p := .start 0) rfl rfl (by simp) (by simp) ⟨r.fits.few, r.fits.room⟩
  have r := r.goF (.startOff (t := 0) (ts := 2) rfl ⟨rfl, by decide +kernel⟩ rfl) (t := 0) (q := .start 0) (p := .newBuf 0) rfl rfl (by simp) (by simp) ⟨r.fits.few, r.fits.room⟩
  have r := r.goF (.newBuf (t := 0) true 2 rfl) (t := 0) (q := .newBuf 0) (p := .turnOn 0) rfl rfl (by simp) (by simp) ⟨r.fits.few, fun b => by
    by_cases e : b = 1
    · subst e; exact fun _ => Nat.le_refl 2
    by_cases e0 : b = 0
    · subst e0; exact fun _ => Nat.le_refl 2
    · intro hb; simp [St.with, St.goto, St.init, setf, e, e0] at hb⟩
  have r := r.goF (.turnOn (t := 0) (ts := 3) rfl ⟨rfl, by decide +kernel⟩) (t := 0) (q := .turnOn 0) (p := .crit 0) rfl rfl (by simp) (by simp) ⟨r.fits.few, r.fits.room⟩
  refine ⟨_, _, r.reachable, rfl, ⟨_, rfl, rfl⟩, ⟨rfl, by decide +kernel⟩, by decide, fun i m' y => ?_⟩
  by_contra hc
  rcases i with _ | _ | _ | _ | i
  · omega
  · omega
  · omega
  · omega
  · cases y

/-- There thread 1 reads the new start, and the value `MasterLocked` of the eviction is still in its lock word, but it
does not give up. -/
example : ∃ w w' : St, LReachable w ∧ w.pc 1 = .tryLock ∧ Mastered w 1 1 ∧ (∀ w1, LStep w w1 → w1.pc 1 ≠ .idle) ∧ LStep w w' ∧
    w'.pc 1 = .locked := by
  obtain ⟨w, m, h, hq, hd, hm, h1, hn⟩ := exAgain
  have h' : LReachable (w.goto 1 .tryLock (w.mem.loadAcq 1 .en 3 m)) :=
    h.step (.other (fun _ _ => .logOn hq hm h1) (fun _ => rfl) (fun s y => by
      have : s ≠ 1 := fun e => by subst e; rw [hq] at y; cases y
      exact (setf_ne _ _ this).trans y) rfl rfl)
  have hp : (w.goto 1 .tryLock (w.mem.loadAcq 1 .en 3 m)).pc 1 = .tryLock := by simp [St.goto, setf]
  have hk : ∀ w1, LStep (w.goto 1 .tryLock (w.mem.loadAcq 1 .en 3 m)) w1 → w1.pc 1 ≠ .idle := by
    intro w1 hs e
    rcases C114_keeps h hq hm h1 hn .refl hp hs with y | y <;> rw [e] at y <;> cases y
  have hf : ∀ s k d, (w.goto 1 .tryLock (w.mem.loadAcq 1 .en 3 m)).pc s ≠ .evClear k d 1 ∧
      (w.goto 1 .tryLock (w.mem.loadAcq 1 .en 3 m)).pc s ≠ .evUnlock k d 1 := by
    refine fun s k d => ⟨fun y => ?_, fun y => ?_⟩
    · obtain ⟨w1, s1, e1, -⟩ := C112_gives_up h' hp (.inl y)
      exact hk w1 s1 e1
    · obtain ⟨w1, s1, e1, -⟩ := C112_gives_up h' hp (.inr y)
      exact hk w1 s1 e1
  obtain ⟨w', s, y, -⟩ := C112_takes h' hp hf
  exact ⟨_, w', h', hp, hd, hk, s, y⟩

/-- C114: a thread that read an earlier start may give up, although tracing has been started again and nobody is evicting
it: that it has read the newest start is needed. -/
theorem C114_refuted_stale : ∃ w w' : St, LReachable w ∧ w.pc 1 = .tryLock ∧ ¬ w.off ∧
    (∀ s k d, w.pc s ≠ .evClear k d 1 ∧ w.pc s ≠ .evUnlock k d 1) ∧ LStep w w' ∧ w'.pc 1 = .idle := by
  have r := LFitting.init (n := 2)
  have r := r.go (.lockM (t := 0) rfl rfl) (t := 0) (q := .idle) (p := .crit 0) rfl rfl (by simp) (by simp) rfl rfl
  have r := r.go (.start (t := 0) rfl (fun _ => rfl)) (t := 0) (q := .crit 0) (p := .start 0) rfl rfl (by simp) (by simp) rfl rfl
  have r := r.go (.startOff (t := 0) (ts := 0) rfl ⟨rfl, by decide⟩ rfl) (t := 0) (q := .start 0) (p := .newBuf 0) rfl rfl (by simp) (by simp) rfl rfl
  have r := r.goF (.newBuf (t := 0) true 2 rfl) (t := 0) (q := .newBuf 0) (p := .turnOn 0) rfl rfl (by simp) (by simp) ⟨r.fits.few, fun b => by
    by_cases e : b = 0
    · subst e; exact fun _ => Nat.le_refl 2
    · intro hb; simp [St.with, St.goto, St.init, setf, e] at hb⟩
  have r := r.go (.turnOn (t := 0) (ts := 1) rfl ⟨rfl, by decide⟩) (t := 0) (q := .turnOn 0) (p := .crit 0) rfl rfl (by simp) (by simp) rfl rfl
  have r := r.go (.unlockM (t := 0) rfl) (t := 0) (q := .crit 0) (p := .idle) rfl rfl (by simp) (by simp) rfl rfl
  have r := r.go (.lockM (t := 1) rfl rfl) (t := 1) (q := .idle) (p := .crit 0) rfl rfl (by simp) (by simp) rfl rfl
  have r := r.register (t := 1) rfl rfl (by decide)
  have r := r.go (.unlockM (t := 1) rfl) (t := 1) (q := .crit 0) (p := .idle) rfl rfl (by simp) (by simp) rfl rfl
  have r := r.go (.logOn (t := 1) (ts := 1) rfl ⟨rfl, by decide⟩ (by decide)) (t := 1) (q := .idle) (p := .tryLock) rfl rfl (by simp) (by simp) rfl rfl
  have r := r.go (.lockM (t := 0) rfl rfl) (t := 0) (q := .idle) (p := .crit 0) rfl rfl (by simp) (by simp) rfl rfl
  have r := r.go (.stop (t := 0) (d := 0) rfl) (t := 0) (q := .crit 0) (p := .exchange false 0) rfl rfl (by simp) (by simp) rfl rfl
  have r := r.goF (.exchangeOn (t := 0) (ts := 1) rfl ⟨rfl, by decide +kernel⟩ rfl (by decide +kernel)) (t := 0) (q := .exchange false 0) (p := .evict false 0) rfl rfl (by simp) (by simp) ⟨r.fits.few, r.fits.room⟩
  have r := r.step (.evLock (t := 0) (u := 1) (ts := 0) rfl rfl ⟨rfl, by decide +kernel⟩ rfl rfl) ⟨r.fits.few, r.fits.room⟩
  have r := r.goF (.evClear (t := 0) (u := 1) rfl) (t := 0) (q := .evClear false 0 1) (p := .evUnlock false 0 1) rfl rfl (by simp) (by simp) ⟨r.fits.few, r.fits.room⟩
  have r := r.step (.evUnlock (t := 0) (u := 1) (ts := 2) rfl ⟨rfl, by decide +kernel⟩) ⟨r.fits.few, r.fits.room⟩
  have r := r.done (t := 0) (d := 0) rfl fun u => by
    by_cases e : u = 1
    · subst e; rfl
    · simp [St.with, St.goto, St.init, setf, e]
  have r := r.goF (.start (t := 0) (d := 0) rfl (fun _ => rfl)) (t := 0) (q := .crit 0) (p := .start 0) rfl rfl (by simp) (by simp) ⟨r.fits.few, r.fits.room⟩
  have r := r.goF (.startOff (t := 0) (ts := 2) rfl ⟨rfl, by decide +kernel⟩ rfl) (t := 0) (q := .start 0) (p := .newBuf 0) rfl rfl (by simp) (by simp) ⟨r.fits.few, r.fits.room⟩
  have r := r.goF (.newBuf (t := 0) true 2 rfl) (t := 0) (q := .newBuf 0) (p := .turnOn 0) rfl rfl (by simp) (by simp) ⟨r.fits.few, fun b => by
    by_cases e : b = 1
    · subst e; exact fun _ => Nat.le_refl 2
    by_cases e0 : b = 0
    · subst e0; exact fun _ => Nat.le_refl 2
    · intro hb; simp [St.with, St.goto, St.init, setf, e, e0] at hb⟩
  have r := r.goF (.turnOn (t := 0) (ts := 3) rfl ⟨rfl, by decide +kernel⟩) (t := 0) (q := .turnOn 0) (p := .crit 0) rfl rfl (by simp) (by simp) ⟨r.fits.few, r.fits.room⟩
  refine ⟨_, _, r.reachable, rfl, ?_, fun s k d => ?_, .tryFail (t := 1) (ts := 1) rfl ⟨rfl, by decide +kernel⟩ rfl, rfl⟩
  · rintro ⟨ts, m, a, b, c⟩
    have h3 := c 3 _ rfl
    rcases ts with _ | _ | _ | _ | i
    · omega
    · omega
    · omega
    · injection a with a; rw [← a] at b; cases b
    · cases a
  · by_cases h0 : s = 0
    · subst h0; exact ⟨nofun, nofun⟩
    by_cases h1 : s = 1
    · subst h1; exact ⟨nofun, nofun⟩
    simp [St.with, St.goto, St.init, setf, h0, h1]

end Phosphor.TLog.W
