import Verif.Proof.WeakWf
import Verif.Model.TraceLogWeak
/-
The release/acquire memory of the trace log never blocks a thread: everything a lock, the mutex or
the return queue passes on is about messages that exist (C106).
-/
namespace Phosphor.TLog.W
open Phosphor.Weak

/-- What is passed on exists. -/
structure Wfs (w : St) : Prop where
  mem : w.mem.Wf
  mview : w.mview.Known w.mem.hist
  lview : ∀ u, (w.lview u).Known w.mem.hist
  bag : ∀ h c v, (c, v) ∈ (w.bufs h).bag → v.Known w.mem.hist

theorem wf_learn {μ : Mem Loc Nat Plain} (h : μ.Wf) {t : Nat} {v : View Loc} (hv : v.Known μ.hist) :
    (learn μ t v).Wf := h.look ((h.view t).join hv)

theorem wf_writeAll {μ : Mem Loc Nat Plain} (h : μ.Wf) {t : Nat} {P : Plain → Bool} :
    (writeAll μ t P).Wf := h.look ((h.view t).tick t)

/-- Steps that leave messages as they are. -/
theorem Wfs.same {w w' : St} (h : Wfs w) (hm : w'.mem.Wf) (hh : w'.mem.hist = w.mem.hist)
    (h1 : w'.mview = w.mview ∨ ∃ t, w'.mview = w'.mem.view t)
    (h2 : ∀ u, w'.lview u = w.lview u ∨ ∃ t, w'.lview u = w'.mem.view t)
    (h3 : ∀ k c v, (c, v) ∈ (w'.bufs k).bag → (c, v) ∈ (w.bufs k).bag ∨ ∃ t, v = w.mem.view t) : Wfs w' where
  mem := hm
  mview := by
    rcases h1 with e | ⟨t, e⟩ <;> rw [e]
    · rw [hh]; exact h.mview
    · exact hm.view t
  lview u := by
    rcases h2 u with e | ⟨t, e⟩ <;> rw [e]
    · rw [hh]; exact h.lview u
    · exact hm.view t
  bag k c v hb := by
    rcases h3 k c v hb with e | ⟨t, rfl⟩
    · rw [hh]; exact h.bag k c v e
    · rw [hh]; exact h.mem.view t

/-- Steps that add a message. -/
theorem Wfs.more {w w' : St} (h : Wfs w) (hm : w'.mem.Wf)
    (hh : ∀ l ts m, w.mem.hist l ts = some m → ∃ m', w'.mem.hist l ts = some m')
    (h1 : w'.mview = w.mview) (h2 : w'.lview = w.lview) (h3 : w'.bufs = w.bufs) : Wfs w' where
  mem := hm
  mview := by rw [h1]; exact h.mview.grow hh
  lview u := by rw [h2]; exact (h.lview u).grow hh
  bag k c v hb := by rw [h3] at hb; exact (h.bag k c v hb).grow hh

theorem mem_giveBack {w : St} {t h k : Nat} {c d : Chunk} {v : View Loc}
    (hb : (d, v) ∈ (w.giveBack t h c k).bag) : (d, v) ∈ (w.bufs k).bag ∨ ∃ t, v = w.mem.view t := by
  unfold St.giveBack at hb
  by_cases e : k = h
  · subst e
    rw [setf_self] at hb
    dsimp only at hb
    split at hb
    · rcases List.mem_cons.1 hb with e | e
      · injection e with _ e; exact .inr ⟨t, e⟩
      · exact .inl e
    · exact .inl hb
  · rw [setf_ne _ _ e] at hb; exact .inl hb

theorem Wfs.step {pol : Bool} {w w' : St} (h : Wfs w) (hs : Step pol w w') : Wfs w' := by
  have wf := h.mem
  cases hs with
  | extLoad hr => exact h.same (wf.loadAcq hr.1) rfl (.inl rfl) (fun _ => .inl rfl) (fun _ _ _ h => .inl h)
  | extStore hf => exact h.more wf.storeRel (grown _ _ _ _) rfl rfl rfl
  | logOff _ hr | logOn _ hr | checkOff _ hr | checkOn _ hr | againOff _ hr | againOn _ hr
  | startOff _ hr | startOn _ hr | getBufOn _ hr | getBufOff _ hr =>
    exact h.same (wf.loadAcq hr.1) rfl (.inl rfl) (fun _ => .inl rfl) (fun _ _ _ h => .inl h)
  | exchangeOff _ hr =>
    exact h.more (wf.rmwAcqRel hr.1) (grown _ _ _ _) rfl rfl rfl
  | exchangeOn _ hr =>
    exact h.more ((wf.rmwAcqRel hr.1).read _) (grown _ _ _ _) rfl rfl rfl
  | turnOn _ hf => exact h.more ((wf.write _).storeRel) (grown _ _ _ _) rfl rfl rfl
  | tryOk => exact h.same (wf_learn wf (h.lview _)) rfl (.inl rfl) (fun _ => .inl rfl) (fun _ _ _ h => .inl h)
  | lockM => exact h.same (wf_learn wf h.mview) rfl (.inl rfl) (fun _ => .inl rfl) (fun _ _ _ h => .inl h)
  | evLock => exact h.same (wf_learn wf (h.lview _)) rfl (.inl rfl) (fun _ => .inl rfl) (fun _ _ _ h => .inl h)
  | ownGive => exact h.same (wf_learn wf (wf.view _)) rfl (.inl rfl) (fun _ => .inl rfl) (fun _ _ _ h => .inl h)
  | ownFree => exact h.same (wf_writeAll wf) rfl (.inl rfl) (fun _ => .inl rfl) (fun _ _ _ h => .inl h)
  | unlockM => exact h.same wf rfl (.inr ⟨_, rfl⟩) (fun _ => .inl rfl) (fun _ _ _ h => .inl h)
  | @unlock t =>
    refine h.same wf rfl (.inl rfl) (fun u => ?_) (fun _ _ _ h => .inl h)
    by_cases e : u = t
    · subst e; exact .inr ⟨u, by simp [St.goto, setf]⟩
    · exact .inl (by simp [setf, e])
  | @evUnlock t k d u =>
    refine h.same wf rfl (.inl rfl) (fun u' => ?_) (fun _ _ _ h => .inl h)
    by_cases e : u' = u
    · subst e; exact .inr ⟨t, by simp [St.goto, setf]⟩
    · exact .inl (by simp [setf, e])
  | giveBack =>
    exact h.same ((wf.read _).read _) rfl (.inl rfl) (fun _ => .inl rfl) (fun _ _ _ hb => mem_giveBack hb)
  | dReturn =>
    exact h.same ((wf.read _).read _) rfl (.inl rfl) (fun _ => .inl rfl) (fun _ _ _ hb => mem_giveBack hb)
  | @fresh t b =>
    refine h.same (wf.read _) rfl (.inl rfl) (fun _ => .inl rfl) (fun k c v hb => ?_)
    by_cases e : k = b
    · subst e; exact .inl (by simpa [setf] using hb)
    · exact .inl (by simpa [setf, e] using hb)
  | @reuse t b b1 b2 c v _ _ hbag =>
    refine h.same (wf_learn (wf.read _) (h.bag b c v (by rw [hbag]; simp))) rfl (.inl rfl) (fun _ => .inl rfl)
      (fun k c' v' hb => ?_)
    by_cases e : k = b
    · subst e
      have hb : (c', v') ∈ b1 ++ b2 := by simpa [setf] using hb
      refine .inl ?_
      rw [hbag]
      rcases List.mem_append.1 hb with x | x <;> simp [x]
    · exact .inl (by simpa [setf, e] using hb)
  | @newBuf t =>
    refine h.same (wf_writeAll wf) rfl (.inl rfl) (fun _ => .inl rfl) (fun k c v hb => ?_)
    by_cases e : k = w.cnt
    · subst e; simp [setf] at hb
    · exact .inl (by simpa [setf, e] using hb)
  | take => exact h.same ((wf.read _).write _) rfl (.inl rfl) (fun _ => .inl rfl) (fun _ _ _ h => .inl h)
  | other => exact h.same wf.other rfl (.inl rfl) (fun _ => .inl rfl) (fun _ _ _ h => .inl h)
  | _ =>
    first
    | exact h.same wf rfl (.inl rfl) (fun _ => .inl rfl) (fun _ _ _ h => .inl h)
    | exact h.same (wf.read _) rfl (.inl rfl) (fun _ => .inl rfl) (fun _ _ _ h => .inl h)
    | exact h.same (wf.write _) rfl (.inl rfl) (fun _ => .inl rfl) (fun _ _ _ h => .inl h)
    | exact h.same ((wf.read _).read _) rfl (.inl rfl) (fun _ => .inl rfl) (fun _ _ _ h => .inl h)
    | exact h.same ((wf.read _).write _) rfl (.inl rfl) (fun _ => .inl rfl) (fun _ _ _ h => .inl h)
    | exact h.same (((wf.read _).read _).read _) rfl (.inl rfl) (fun _ => .inl rfl) (fun _ _ _ h => .inl h)

theorem Reachable.wfs {pol : Bool} {w : St} (h : Reachable pol w) : Wfs w := by
  induction h with
  | init =>
    have hb : ∀ h : Loc, ∃ m, (St.init.mem.hist h 0) = some m := fun h => ⟨_, rfl⟩
    exact ⟨.init _, fun l => hb l, fun _ l => hb l, fun _ _ _ h => by cases h⟩
  | step _ hs ih => exact ih.step hs

end Phosphor.TLog.W
