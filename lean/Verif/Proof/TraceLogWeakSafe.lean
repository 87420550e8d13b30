import Verif.Proof.TraceLogWeakStep
namespace Phosphor.TLog.W
open Phosphor.Weak

/-- Buffer `h` exists and no other thread has taken it. -/
def Mine (w : St) (t h : Nat) : Prop := w.freed h = false ∧ ∀ u, w.own h = some u → u = t

/-- A plain read of `d` by `t` is neither a race nor a use after free. -/
def OkR (w : St) (t : Nat) (d : Plain) : Prop :=
  ¬ w.mem.racyRead t d ∧ ∀ h, part h d = true → Mine w t h

/-- A plain write likewise. -/
def OkW (w : St) (t : Nat) (d : Plain) : Prop :=
  ¬ w.mem.racyWrite t d ∧ ∀ h, part h d = true → Mine w t h

/-- All accesses between `w` and memory `μ` are fine. -/
def SafeM (w : St) (μ : Mem Loc Nat Plain) : Prop :=
  ∀ t d, (μ.rd d t ≠ w.mem.rd d t → OkR w t d) ∧ (μ.wr d t ≠ w.mem.wr d t → OkW w t d)

theorem SafeM.refl (w : St) : SafeM w w.mem := fun _ _ => ⟨fun h => absurd rfl h, fun h => absurd rfl h⟩

theorem SafeM.same {w : St} {μ μ' : Mem Loc Nat Plain} (h : SafeM w μ) (h1 : μ'.rd = μ.rd)
    (h2 : μ'.wr = μ.wr) : SafeM w μ' := by
  intro t d; rw [h1, h2]; exact h t d

theorem SafeM.read {w : St} {μ : Mem Loc Nat Plain} (h : SafeM w μ) {t : Nat} {d : Plain}
    (hd : OkR w t d) : SafeM w (μ.read t d) := by
  intro u k
  refine ⟨fun hc => ?_, (h u k).2⟩
  by_cases e : k = d ∧ u = t
  · obtain ⟨rfl, rfl⟩ := e; exact hd
  · rw [read_rd _ _ _ _ _ (by
      by_cases e1 : k = d
      · exact .inr fun e2 => e ⟨e1, e2⟩
      · exact .inl e1)] at hc
    exact (h u k).1 hc

theorem SafeM.write {w : St} {μ : Mem Loc Nat Plain} (h : SafeM w μ) {t : Nat} {d : Plain}
    (hd : OkW w t d) : SafeM w (μ.write t d) := by
  intro u k
  refine ⟨(h u k).1, fun hc => ?_⟩
  by_cases e : k = d ∧ u = t
  · obtain ⟨rfl, rfl⟩ := e; exact hd
  · rw [write_wr _ _ _ _ _ (by
      by_cases e1 : k = d
      · exact .inr fun e2 => e ⟨e1, e2⟩
      · exact .inl e1)] at hc
    exact (h u k).2 hc

theorem SafeM.writeAll {w : St} {μ : Mem Loc Nat Plain} (h : SafeM w μ) {t : Nat}
    {P : Plain → Bool} (hd : ∀ d, P d = true → OkW w t d) : SafeM w (writeAll μ t P) := by
  intro u k
  refine ⟨(h u k).1, fun hc => ?_⟩
  have hc' : (if P k then setf (μ.wr k) t ((μ.view t).clk t + 1) else μ.wr k) u ≠ _ := hc
  by_cases e : P k = true ∧ u = t
  · obtain ⟨e1, rfl⟩ := e; exact hd k e1
  · have : (if P k then setf (μ.wr k) t ((μ.view t).clk t + 1) else μ.wr k) u = μ.wr k u := by
      split
      · next e1 => exact setf_ne _ _ fun e2 => e ⟨e1, e2⟩
      · rfl
    rw [this] at hc'
    exact (h u k).2 hc'

theorem okW_of_acc {w : St} {t : Nat} {d : Plain} (h : ∀ u, acc w.mem d u ≤ (w.mem.view t).clk u)
    (hf : ∀ h, part h d = true → Mine w t h) : OkW w t d := by
  refine ⟨?_, hf⟩
  rintro ⟨u, hu⟩
  have h1 := h u
  unfold acc at h1
  omega

theorem OkW.okR {w : St} {t : Nat} {d : Plain} (h : OkW w t d) : OkR w t d :=
  ⟨fun ⟨u, hu⟩ => h.1 ⟨u, .inl hu⟩, h.2⟩

theorem Inv.mineBuf {w : St} {g : Ghost} (h : Inv w g) {t b : Nat} (hb : w.buf = some b) :
    Mine w t b :=
  ⟨(h.bufOk b hb).1, fun _ hu => absurd hb (h.ownOk _ _ hu).2.1⟩

theorem Inv.okCfg {w : St} {g : Ghost} (h : Inv w g) {t : Nat} (hm : w.mutex = some t) :
    OkW w t .cfg :=
  okW_of_acc (fun u => by have := h.cfg u; rw [mv_some hm] at this; exact this)
    (fun _ e => by simp [part] at e)

/-- The own chunk pointer, under the own chunk lock or the mutex. -/
theorem Inv.okTc {w : St} {g : Ghost} (h : Inv w g) {t : Nat}
    (hm : w.lk t = some t ∨ w.mutex = some t) : OkW w t (.tc t) := by
  refine okW_of_acc (fun u => ?_) (fun _ e => by simp [part] at e)
  by_cases e : u = t
  · subst e; exact h.mine _ _
  · obtain ⟨h1, h2⟩ := (h.tcl t u).1 e
    rcases hm with hm | hm
    · rw [lv_some hm] at h1; exact h1
    · rw [mv_some hm] at h2; exact h2

/-- The chunk pointer of `x`, under its chunk lock and the mutex. -/
theorem Inv.okTcM {w : St} {g : Ghost} (h : Inv w g) {t x : Nat}
    (hl : w.lk x = some t) (hm : w.mutex = some t) : OkW w t (.tc x) := by
  refine okW_of_acc (fun u => ?_) (fun _ e => by simp [part] at e)
  have h1 := h.tcl x u
  rw [lv_some hl, mv_some hm] at h1
  by_cases e : u = x
  · subst e; have := h1.2; omega
  · exact (h1.1 e).1

theorem Inv.okCell {w : St} {g : Ghost} (h : Inv w g) {t : Nat} {c : Chunk}
    (hc : held w t = some c) : OkW w t (.cell c.1 c.2) := by
  obtain ⟨h1, h2, h3⟩ := h.heldOk t c hc
  refine okW_of_acc h3 (fun b e => ?_)
  have e : c.1 = b := by simpa [part] using e
  rw [← e]; exact h.mineBuf h1

theorem Inv.okOwn {w : St} {g : Ghost} (h : Inv w g) {t b : Nat} {d : Plain}
    (hc : w.own b = some t) (hd : part b d = true) : OkW w t d := by
  obtain ⟨h1, h2, h3, h4⟩ := h.ownOk b t hc
  refine okW_of_acc (h4 d hd) (fun b' e => ?_)
  rw [part_inj e hd]
  exact ⟨h1, fun u hu => Option.some.inj (hu.symm.trans hc)⟩

/-- The thread knows what was done before tracing was turned on, or holds the mutex. -/
theorem Inv.okBuf {w : St} {g : Ghost} (h : Inv w g) {t : Nat}
    (hr : L w g t ∨ w.mutex = some t) : OkR w t .buf := by
  refine ⟨?_, fun _ e => by simp [part] at e⟩
  rintro ⟨u, hu⟩
  rcases hr with hL | hm
  · obtain ⟨b, h1, h2, h3⟩ := h.act (by
      rcases hL.2.1.2 with e | e
      · exact .inl e
      · exact .inr ⟨t, e⟩)
    have := (h2 u).1; have := hL.2.2 u; omega
  · have := (h.wrM u).1; rw [mv_some hm] at this; omega

theorem Inv.okObj {w : St} {g : Ghost} (h : Inv w g) {t b : Nat} (hb : w.buf = some b)
    (hr : L w g t ∨ w.mutex = some t) : OkR w t (.obj b) := by
  refine ⟨?_, fun b' e => ?_⟩
  · rintro ⟨u, hu⟩
    rcases hr with hL | hm
    · obtain ⟨b', h1, h2, h3⟩ := h.act (by
        rcases hL.2.1.2 with e | e
        · exact .inl e
        · exact .inr ⟨t, e⟩)
      have e := Option.some.inj (h1.symm.trans hb)
      subst e
      have := (h2 u).2; have := hL.2.2 u; omega
    · have := (h.wrM u).2 b hb; rw [mv_some hm] at this; omega
  · have e : b = b' := by simpa [part] using e
    rw [← e]; exact h.mineBuf hb

theorem Inv.safe {w w' : St} {g : Ghost} (h : Inv w g) (hs : Step true w w') : SafeM w w'.mem := by
  have s := SafeM.refl w
  cases hs with
  | other => exact s.same rfl rfl
  | extLoad => exact s.same rfl rfl
  | extStore => exact s.same rfl rfl
  | logOff => exact s.same rfl rfl
  | logOn => exact s.same rfl rfl
  | tryFail => exact s
  | tryOk => exact s.same rfl rfl
  | notReg => exact s
  | @noChunk t hq h1 h2 => exact s.read (h.okTc (.inl (h.here hq))).okR
  | @fullChunk t c hq h1 h2 =>
    exact (s.read (h.okTc (.inl (h.here hq))).okR).read
      (h.okCell (by rw [held_eq, hq]; exact h2)).okR
  | @room t c hq h1 h2 =>
    exact (s.read (h.okTc (.inl (h.here hq))).okR).read
      (h.okCell (by rw [held_eq, hq]; exact h2)).okR
  | checkOff => exact s.same rfl rfl
  | checkOn => exact s.same rfl rfl
  | @replaceNone t hq h1 => exact s.read (h.okTc (.inl (h.here hq).1)).okR
  | @replaceSome t c hq h1 => exact s.read (h.okTc (.inl (h.here hq).1)).okR
  | @giveBack t c b hq h1 =>
    have hL := (h.here hq).1
    exact (s.read (h.okBuf (.inl hL))).read (h.okObj h1 (.inl hL))
  | @clear t hq => exact s.write (h.okTc (.inl (h.here hq).1))
  | againOff => exact s.same rfl rfl
  | againOn => exact s.same rfl rfl
  | @bufNone t hq h1 => exact s.read (h.okBuf (.inl (h.here hq).1))
  | @bufSome t b hq h1 => exact s.read (h.okBuf (.inl (h.here hq).1))
  | @fresh t b hq h1 => exact s.read (h.okObj (h.here hq).2.2 (.inl (h.here hq).1))
  | @reuse t b b1 b2 c v hq h1 h2 =>
    exact (s.read (h.okObj (h.here hq).2.2 (.inl (h.here hq).1))).same rfl rfl
  | @exhausted t b hq h1 => exact s.read (h.okObj (h.here hq).2.2 (.inl (h.here hq).1))
  | @reset t c hq => exact s.write (h.okCell (by rw [held_eq, hq]; rfl))
  | @setChunk t c hq => exact s.write (h.okTc (.inl (h.here hq).1.1))
  | @write t c hq h1 =>
    exact (s.read (h.okTc (.inl (h.here hq).1.1)).okR).write
      (h.okCell (by rw [held_eq, hq]; exact h1))
  | unlock => exact s
  | lockM => exact s.same rfl rfl
  | unlockM => exact s
  | @cfg t d hq => exact s.write (h.okCfg (h.here hq).1.1)
  | @statsNone t d hq h1 =>
    have hm := (h.here hq).1.1
    exact (s.read (h.okBuf (.inr hm))).read (h.okCfg hm).okR
  | @statsSome t d b hq h1 =>
    have hm := (h.here hq).1.1
    exact ((s.read (h.okBuf (.inr hm))).read (h.okObj h1 (.inr hm))).read (h.okCfg hm).okR
  | stop => exact s
  | exchangeOff => exact s.same rfl rfl
  | @exchangeOn t k d ts m hq h1 h2 h3 =>
    exact (s.same (μ' := w.mem.rmwAcqRel t .en ts m 0) rfl rfl).read
      (h.okCfg (h.here hq).1.1).okR
  | evLock => exact s.same rfl rfl
  | @evClear t k d u hq =>
    obtain ⟨hm, _, _, hl, _⟩ := h.here hq
    exact s.write (h.okTcM hl hm)
  | evUnlock => exact s
  | @evDone t k d hq h1 => exact s.read (h.okCfg (h.here hq).1).okR
  | resume => exact s
  | @start t d hq h1 => exact s.write (h.okCfg (h.here hq).1.1)
  | startOff => exact s.same rfl rfl
  | startOn => exact s.same rfl rfl
  | @newBuf t d ring size hq =>
    obtain ⟨hM, hd, hon⟩ := h.here hq
    have hdead := Inv.dead (g := g) hM hon
    have hcur : ∀ k, curLoc w k → ∀ u, acc w.mem k u ≤ (w.mem.view t).clk u := by
      intro k hk u
      have := (h.cur k hk u).2 (hdead u)
      rw [mv_some hM.1] at this; exact this
    refine s.writeAll fun k hk => ?_
    simp only [Bool.or_eq_true, beq_iff_eq, Option.any_eq_true] at hk
    rcases hk with (rfl | hk) | ⟨b, hb, hk⟩
    · exact okW_of_acc (hcur _ (.inl rfl)) (fun _ e => by simp [part] at e)
    · refine okW_of_acc (fun u => ?_) (fun b e => ?_)
      · rw [h.fresh _ _ (Nat.le_refl _) hk u]; exact Nat.zero_le _
      · rw [part_inj e hk]
        exact ⟨h.freshF _ (Nat.le_refl _),
          fun u hu => absurd (h.ownOk _ _ hu).2.2.1 (Nat.lt_irrefl _)⟩
    · refine okW_of_acc (hcur _ (.inr ⟨b, hb, hk⟩)) (fun b' e => ?_)
      rw [part_inj e hk]; exact h.mineBuf hb
  | @turnOn t d ts hq h1 => exact (s.write (h.okCfg (h.here hq).1.1)).same rfl rfl
  | getBuf => exact s
  | getBufOn => exact s.same rfl rfl
  | getBufOff => exact s.same rfl rfl
  | @take t d hq =>
    obtain ⟨hM, hd, hon⟩ := h.here hq
    have hdead := Inv.dead (g := g) hM hon
    refine (s.read (h.okCfg hM.1).okR).write (okW_of_acc (fun u => ?_) (fun _ e => by simp [part] at e))
    have := (h.cur .buf (.inl rfl) u).2 (hdead u)
    rw [mv_some hM.1] at this; exact this
  | @register t d hq h1 => exact s.write (h.okCfg (h.here hq).1.1)
  | deregister => exact s
  | @dNone t d hq h1 => exact s.read (h.okTc (.inr (h.here hq).1.1)).okR
  | @dSome t d c hq h1 => exact s.read (h.okTc (.inr (h.here hq).1.1)).okR
  | @dReturnNone t d c hq h1 => exact s.read (h.okBuf (.inr (h.here hq).1.1))
  | @dReturn t d c b hq h1 =>
    have hm := (h.here hq).1.1
    exact (s.read (h.okBuf (.inr hm))).read (h.okObj h1 (.inr hm))
  | @dClear t d hq => exact s.write (h.okTc (.inr (h.here hq).1.1))
  | @dErase t d hq => exact s.write (h.okCfg (h.here hq).1.1)
  | @ownRead t b i hq h1 =>
    exact (s.read (h.okOwn h1 (by simp [part])).okR).read (h.okOwn h1 (by simp [part])).okR
  | ownGive => exact s.same rfl rfl
  | @ownFree t b hq h1 => exact s.writeAll fun k hk => h.okOwn h1 hk

end Phosphor.TLog.W
