import Verif.Proof.TraceLogWeakSpecial
namespace Phosphor.TLog.W
open Phosphor.Weak

theorem Inv.here {w : St} {g : Ghost} {μ : Mem Loc Nat Plain} {t : Nat} {q : Pc}
    (h : Inv { w with mem := μ } g) (hq : w.pc t = q) : PcOk { w with mem := μ } g t q :=
  hq ▸ h.pcs t

theorem learn_le (μ : Mem Loc Nat Plain) (t : Nat) (v : View Loc) : VLe v ((learn μ t v).view t) := by
  show VLe v (setf μ.view t ((μ.view t).join v) t)
  rw [setf_self]; exact vle_right _ _

/-- While `t` holds the mutex, a thread whose chunk lock another thread holds is not in a call. -/
theorem Inv.quiet {w : St} {g : Ghost} (h : Inv w g) {t x : Nat} (hm : w.mutex = some t)
    (hl : w.lk x = some t) (hx : x ≠ t) : w.pc x = .idle ∨ w.pc x = .tryLock := by
  have hp := h.pcs x
  have hnm : w.mutex ≠ some x := fun e => hx (Option.some.inj (hm.symm.trans e)).symm
  have hnl : w.lk x ≠ some x := fun e => hx (Option.some.inj (hl.symm.trans e)).symm
  generalize w.pc x = p at hp
  cases p with
  | idle => exact .inl rfl
  | tryLock => exact .inr rfl
  | locked => exact absurd hp hnl
  | check => exact absurd hp.1 hnl
  | replace => exact absurd hp.1 hnl
  | giveBack => exact absurd hp.1.1 hnl
  | clear => exact absurd hp.1 hnl
  | again => exact absurd hp.1.1 hnl
  | readBuf => exact absurd hp.1.1 hnl
  | getChunk => exact absurd hp.1.1 hnl
  | reset => exact absurd hp.1.1 hnl
  | setChunk => exact absurd hp.1.1 hnl
  | write => exact absurd hp.1.1 hnl
  | unlock => exact absurd hp hnl
  | crit => exact absurd hp.1.1 hnm
  | exchange => exact absurd hp.1.1 hnm
  | evict => exact absurd hp.1 hnm
  | evClear => exact absurd hp.1 hnm
  | evUnlock => exact absurd hp.1 hnm
  | start => exact absurd hp.1.1 hnm
  | newBuf => exact absurd hp.1.1 hnm
  | turnOn => exact absurd hp.1.1 hnm
  | getBuf => exact absurd hp.1.1 hnm
  | take => exact absurd hp.1.1 hnm
  | dTest => exact absurd hp.1.1 hnm
  | dReturn => exact absurd hp.1.1 hnm
  | dClear => exact absurd hp.1.1 hnm
  | dErase => exact absurd hp.1.1 hnm

/-- The holder of the mutex, outside eviction, is the only one who can hold its chunk lock. -/
theorem Inv.ownLk {w : St} {g : Ghost} (h : Inv w g) {t u : Nat} (hm : w.mutex = some t)
    (hl : w.lk t = some u) : u = t := by
  rcases h.lkpc t u hl with ⟨e, _⟩ | ⟨k, d, e⟩
  · exact e
  · have hp := h.pcs u
    have : w.mutex = some u := by
      rcases e with e | e <;> rw [e] at hp <;> exact hp.1
    exact Option.some.inj (this.symm.trans hm)

theorem inv_init : Inv St.init ⟨0, false, fun _ => 0⟩ where
  pcs _ := trivial
  mpc _ h := by cases h
  lkpc _ _ h := by cases h
  mfree _ _ := rfl
  penReg _ h := by cases h
  enTop := ⟨_, rfl, fun h => by cases h⟩
  enMax ts m h := by
    simp only [St.init, Mem.init] at h
    split at h
    · next e => rw [e]; exact Nat.le_refl _
    · cases h
  enKnow := Nat.zero_le _
  run _ _ _ h := by cases h
  act h := by rcases h with h | ⟨_, h⟩ <;> cases h
  tcs _ _ h := by cases h
  heldOk _ _ h := by cases h
  heldInj _ _ _ h := by cases h
  bagOk _ h := by cases h
  bagNodup _ h := by cases h
  cur _ _ _ := ⟨Nat.zero_le _, fun _ => Nat.zero_le _⟩
  wrM _ := ⟨Nat.zero_le _, fun _ _ => Nat.zero_le _⟩
  tcl _ _ := ⟨fun _ => ⟨Nat.zero_le _, Nat.zero_le _⟩, Nat.zero_le _⟩
  cfg _ := Nat.zero_le _
  ownOk _ _ h := by cases h
  bufOk _ h := by cases h
  fresh _ _ _ _ _ := rfl
  freshF _ _ := rfl
  mine _ _ := Nat.zero_le _

theorem inv_step {w w' : St} {g : Ghost} (h : Inv w g) (hs : Step true w w') : ∃ g', Inv w' g' := by
  cases hs with
  | @other t => exact ⟨g, h.view (t := t) rfl (vle_tick _ _) rfl rfl rfl⟩
  | @extLoad t n ts m h1 => exact ⟨g, h.load t _ ts m⟩
  | @extStore t n ts v h1 =>
    refine ⟨g, h.view (t := t) (v := (w.mem.view t).see (.ext n) ts) rfl (vle_see _ _ _) ?_ rfl rfl⟩
    funext i
    simp [Mem.storeRel, Mem.add]
  | @logOff t ts m hq h1 h2 =>
    exact ⟨g, (h.load t .en ts m).move hq trivial rfl rfl rfl (.inl rfl)⟩
  | @logOn t ts m hq h1 h2 =>
    exact ⟨g, (h.load t .en ts m).move hq trivial rfl rfl rfl (.inl rfl)⟩
  | @tryFail t hq => exact ⟨g, Inv.move (μ := w.mem) h hq trivial rfl rfl rfl (.inl rfl)⟩
  | @tryOk t hq h1 =>
    exact ⟨g, (h.learn t (w.lview t)).lock (x := t) hq h1 (setf_self _ _ _) (.inl ⟨rfl, rfl⟩)
      rfl rfl rfl (learn_le _ _ _) rfl⟩
  | @notReg t hq h1 =>
    exact ⟨g, Inv.move (μ := w.mem) h hq (h.here hq : w.lk t = some t) rfl rfl rfl (.inl rfl)⟩
  | @noChunk t hq h1 h2 =>
    have hp : w.lk t = some t := h.here hq
    exact ⟨g, (h.read (d := .tc t) (.inl ⟨rfl, .inl hp⟩)).move hq ⟨hp, h1⟩ rfl rfl rfl (.inl rfl)⟩
  | @fullChunk t c hq h1 h2 =>
    have hp : w.lk t = some t := h.here hq
    have hc := h.tcs t c h2
    have hh : held w t = some c := by rw [held_eq, hq]; exact h2
    exact ⟨g, ((h.read (d := .tc t) (.inl ⟨rfl, .inl hp⟩)).read (d := .cell c.1 c.2)
      (.inl ⟨hh, .inl ⟨hp, hc.1⟩⟩)).move hq ⟨hp, h1⟩ rfl rfl rfl (.inl rfl)⟩
  | @room t c hq h1 h2 =>
    have hp : w.lk t = some t := h.here hq
    have hc := h.tcs t c h2
    have hh : held w t = some c := by rw [held_eq, hq]; exact h2
    have h3 := (h.read (d := .tc t) (.inl ⟨rfl, .inl hp⟩)).read (t := t) (d := .cell c.1 c.2)
      (.inl ⟨hh, .inl ⟨hp, hc.1⟩⟩)
    exact ⟨g, h3.move hq ⟨⟨hp, h3.tcs t c h2⟩, by
      show w.tc t ≠ none
      rw [h2]; exact fun e => (by cases e)⟩ rfl rfl rfl (.inl rfl)⟩
  | @checkOff t ts m hq h1 h2 =>
    exact ⟨g, (h.load t .en ts m).move hq (h.here hq).1 rfl rfl rfl (.inl rfl)⟩
  | @checkOn t ts m hq h1 h2 =>
    obtain ⟨hp1, hp2⟩ := h.here hq
    have h3 := h.seeOn hp1 hp2 h1 h2
    exact ⟨g, (h.load t .en ts m).move hq ⟨hp1, h3.1, fun u =>
      Nat.le_trans (h3.2 u) (loadAcq_clk _ _ _ _ _ u)⟩ rfl rfl rfl (.inl rfl)⟩
  | @replaceNone t hq h1 =>
    have h2 := h.read (d := .tc t) (.inl ⟨rfl, .inl (h.here hq).1⟩)
    exact ⟨g, h2.move hq ⟨h2.here hq, h1⟩ rfl rfl rfl (.inl rfl)⟩
  | @replaceSome t c hq h1 =>
    have h2 := h.read (d := .tc t) (.inl ⟨rfl, .inl (h.here hq).1⟩)
    exact ⟨g, h2.move hq ⟨h2.here hq, h1⟩ rfl rfl rfl (.inl rfl)⟩
  | @giveBack t c b hq h1 =>
    obtain ⟨hL, hc⟩ := h.here hq
    have hh : held w t = some c := by rw [held_eq, hq]; exact hc
    have h2 := h.giveBack (p := .clear) hq hL rfl rfl rfl h1 hh rfl
    exact ⟨g, (h2.read (d := .buf) (.inl ⟨hL.1, hL.2.1⟩)).read (d := .obj b)
      (.inl ⟨h1, .inl ⟨hL.1, hL.2.1⟩⟩)⟩
  | @clear t hq =>
    have h2 := h.write (d := .tc t) (.inl ⟨rfl, .inl (h.here hq).1⟩)
      (fun e => (by cases e)) (fun _ e => (by cases e))
    have hL : L _ _ _ := h2.here hq
    refine ⟨g, h2.setTc (x := t) (o := none) hq ⟨hL, setf_self _ _ _⟩ rfl rfl (.inl rfl) (.inl rfl)
      (fun _ e => (by cases e)) (fun _ => .inl rfl) (fun e => absurd rfl e) ?_⟩
    intro u hu e
    exact absurd (Option.some.inj (hL.1.symm.trans e)).symm hu
  | @againOff t ts m hq h1 h2 =>
    exact ⟨g, (h.load t .en ts m).move hq (h.here hq).1.1 rfl rfl rfl (.inl rfl)⟩
  | @againOn t ts m hq h1 h2 =>
    have h3 := h.load t .en ts m
    exact ⟨g, h3.move hq ⟨(h3.here hq).1, (h3.here hq).2⟩ rfl rfl rfl (.inl rfl)⟩
  | @bufNone t hq h1 =>
    obtain ⟨hL, hc⟩ := h.here hq
    exact ⟨g, (h.read (d := .buf) (.inl ⟨hL.1, hL.2.1⟩)).move hq hL.1 rfl rfl rfl (.inl rfl)⟩
  | @bufSome t b hq h1 =>
    obtain ⟨hL, hc⟩ := h.here hq
    have h2 := h.read (t := t) (d := .buf) (.inl ⟨hL.1, hL.2.1⟩)
    exact ⟨g, h2.move hq ⟨(h2.here hq).1, hc, h1⟩ rfl rfl rfl (.inl rfl)⟩
  | @fresh t b hq h1 =>
    obtain ⟨hL, hc, hb⟩ := h.here hq
    have hact : g.on = true ∨ ∃ u, w.pend u = true := by
      rcases hL.2.1.2 with e | e
      · exact .inl e
      · exact .inr ⟨t, e⟩
    obtain ⟨b', h3, h4, h5⟩ := h.act hact
    have e := Option.some.inj (h3.symm.trans hb)
    subst e
    have h2 := h.obtain (t := t) (b := b') (c := (b', (w.bufs b').next))
      (B := { w.bufs b' with next := (w.bufs b').next + 1 }) hq hb rfl
      (fun u hu => absurd (h.heldOk u _ hu).2.1 (Nat.lt_irrefl _)) (Nat.lt_succ_self _)
      (Nat.le_succ _) (fun x hx => ⟨hx, fun e => ?_⟩) (h.bagNodup b' hb)
      (fun u => Nat.le_trans (h5 _ (Nat.le_refl _) u) (hL.2.2 u))
    · exact ⟨g, h2.read (d := .obj b') (.inl ⟨hb, .inl ⟨hL.1, hL.2.1⟩⟩)⟩
    · have := (h.bagOk b' hb x.1 x.2 hx).2.1
      rw [e] at this
      exact absurd this (Nat.lt_irrefl _)
  | @reuse t b b1 b2 c v hq hr h1 =>
    obtain ⟨hL, hc, hb⟩ := h.here hq
    have h2 := (h.read (t := t) (d := .obj b) (.inl ⟨hb, .inl ⟨hL.1, hL.2.1⟩⟩)).learn t v
    have hmem : (c, v) ∈ (w.bufs b).bag := by rw [h1]; simp
    obtain ⟨h3, h4, h5, h6⟩ := h2.bagOk b hb c v hmem
    have hnd := h.bagNodup b hb
    rw [h1, List.map_append, List.map_cons] at hnd
    refine ⟨g, h2.obtain (t := t) (b := b) (c := c)
      (B := { w.bufs b with bag := b1 ++ b2 }) hq hb h3 h5 h4 (Nat.le_refl _) ?_ ?_
      (fun u => Nat.le_trans (h6 u) ((learn_le _ _ _).2 u))⟩
    · intro x hx
      refine ⟨?_, ?_⟩
      · show x ∈ (w.bufs b).bag
        rw [h1]
        rcases List.mem_append.mp hx with hx | hx
        · exact List.mem_append_left _ hx
        · exact List.mem_append_right _ (List.mem_cons_of_mem _ hx)
      · intro e
        have hnd' := (List.perm_middle.nodup_iff).mp hnd
        rw [List.nodup_cons, ← List.map_append] at hnd'
        have hm := List.mem_map_of_mem (f := Prod.fst) hx
        rw [e] at hm
        exact hnd'.1 hm
    · have hnd' := (List.perm_middle.nodup_iff).mp hnd
      rw [List.nodup_cons, ← List.map_append] at hnd'
      exact hnd'.2
  | @exhausted t b hq h1 =>
    obtain ⟨hL, hc, hb⟩ := h.here hq
    exact ⟨g, (h.read (d := .obj b) (.inl ⟨hb, .inl ⟨hL.1, hL.2.1⟩⟩)).move hq hL.1 rfl rfl rfl
      (.inl rfl)⟩
  | @reset t c hq =>
    obtain ⟨hL, hc⟩ := h.here hq
    have hh : held w t = some c := by rw [held_eq, hq]; rfl
    have h2 := h.write (t := t) (d := .cell c.1 c.2) (.inl ⟨hh, .inl ⟨hL.1, hL.2.1⟩⟩)
      (fun e => (by cases e)) (fun _ e => (by cases e))
    exact ⟨g, h2.move hq ⟨(h2.here hq).1, (h2.here hq).2⟩ rfl rfl rfl (.inl rfl)⟩
  | @setChunk t c hq =>
    have h2 := h.write (d := .tc t) (.inl ⟨rfl, .inl (h.here hq).1.1⟩)
      (fun e => (by cases e)) (fun _ e => (by cases e))
    obtain ⟨hL, hc⟩ := h2.here hq
    refine ⟨g, h2.setTc (x := t) (o := some c) hq ⟨hL, ?_⟩ rfl rfl (.inl rfl) (.inl rfl)
      (fun _ _ => ⟨rfl, hL.2⟩) (fun _ => .inl rfl) (fun e => absurd rfl e) ?_⟩
    · show setf w.tc t (some c) t ≠ none
      rw [setf_self]; exact fun e => (by cases e)
    · intro u hu e
      exact absurd (Option.some.inj (hL.1.symm.trans e)).symm hu
  | @write t c hq h1 =>
    obtain ⟨hL, hc⟩ := h.here hq
    have hh : held w t = some c := by rw [held_eq, hq]; exact h1
    exact ⟨g, ((h.read (d := .tc t) (.inl ⟨rfl, .inl hL.1⟩)).write (d := .cell c.1 c.2)
      (.inl ⟨hh, .inl ⟨hL.1, hL.2.1⟩⟩) (fun e => (by cases e)) (fun _ e => (by cases e))).move hq hL.1
      rfl rfl rfl (.inl rfl)⟩
  | @unlock t hq => exact ⟨g, h.unlk hq⟩
  | @lockM t hq h1 =>
    exact ⟨g, (h.learn t w.mview).lockM hq h1 (learn_le _ _ _)⟩
  | @unlockM t hq => exact ⟨g, h.unlockM hq⟩
  | @cfg t d hq =>
    have h2 := h.write (t := t) (d := .cfg) (h.here hq).1.1 (fun e => (by cases e))
      (fun _ e => (by cases e))
    exact ⟨g, h2.move hq (h2.here hq) rfl rfl rfl (.inl rfl)⟩
  | @statsNone t d hq h1 =>
    have hm : w.mutex = some t := (h.here hq).1.1
    have h2 := (h.read (t := t) (d := .buf) (.inr hm)).read (t := t) (d := .cfg) hm
    exact ⟨g, h2.move hq (h2.here hq) rfl rfl rfl (.inl rfl)⟩
  | @statsSome t d b hq h1 =>
    have hm : w.mutex = some t := (h.here hq).1.1
    have h2 := ((h.read (t := t) (d := .buf) (.inr hm)).read (t := t) (d := .obj b)
      (.inl ⟨h1, .inr hm⟩)).read (t := t) (d := .cfg) hm
    exact ⟨g, h2.move hq (h2.here hq) rfl rfl rfl (.inl rfl)⟩
  | @stop t d hq =>
    have hp := h.here hq
    exact ⟨g, Inv.move (μ := w.mem) h hq ⟨hp.1, hp.2, fun e => (by cases e)⟩ rfl rfl rfl (.inl rfl)⟩
  | @exchangeOff t k d ts m hq h1 h2 h3 =>
    obtain ⟨hM, hd, hk⟩ := h.here hq
    obtain ⟨h4, h5⟩ := h.seeTop hM.1 h1
    have hon : g.on = false := by
      cases e : g.on with
      | false => rfl
      | true => rw [e, h3] at h5; cases h5
    have hpend : w.pend = if g.on then w.reg else w.pend := by rw [hon]; rfl
    refine ⟨_, h.enOff (ts := ts + 1) (pend := w.pend)
      (x := ((w.mem.view t).see .en (ts + 1)).join m.view) hq hM (by omega) rfl
      ((vle_see _ _ _).trans (vle_left _ _)) ?_ ?_ ?_ rfl rfl hpend ?_ rfl ?_ rfl ?_⟩
    · exact Nat.le_trans (by simp [View.see]; omega)
        ((vle_left ((w.mem.view t).see .en (ts + 1)) m.view).1 .en)
    · simp only [and_self, if_true]
    · intro i hi; simp [hi]
    · cases k with
      | true => exact ⟨hM, hk rfl, rfl⟩
      | false => exact ⟨hM, hd.1, fun _ => rfl⟩
    · cases k <;> rfl
    · cases k <;> rfl
  | @exchangeOn t k d ts m hq h1 h2 h3 =>
    obtain ⟨hM, hd, hk⟩ := h.here hq
    obtain ⟨h4, h5⟩ := h.seeTop hM.1 h1
    have hon : g.on = true := by
      cases e : g.on with
      | true => rfl
      | false => rw [e] at h5; exact absurd h5 h3
    have hpend : w.reg = if g.on then w.reg else w.pend := by rw [hon]; rfl
    have h6 := h.enOff (ts := ts + 1) (p := .evict k d) (pend := w.reg)
      (x := ((w.mem.view t).see .en (ts + 1)).join m.view)
      (μ := w.mem.rmwAcqRel t .en ts m 0) hq hM (by omega) rfl
      ((vle_see _ _ _).trans (vle_left _ _)) ?_ ?_ ?_ rfl rfl hpend ⟨hM.1, rfl, hd.1, hk⟩ rfl rfl rfl rfl
    · exact ⟨_, h6.read (t := t) (d := .cfg) hM.1⟩
    · exact Nat.le_trans (by simp [View.see]; omega)
        ((vle_left ((w.mem.view t).see .en (ts + 1)) m.view).1 .en)
    · simp only [Mem.rmwAcqRel, Mem.add, and_self, if_true]
    · intro i hi; simp [Mem.rmwAcqRel, Mem.add, hi]
  | @evLock t k d u hq h1 h2 =>
    obtain ⟨hm, hon, hk⟩ := h.here hq
    exact ⟨g, (h.learn t (w.lview u)).lock (x := u) hq h2
      ⟨hm, hon, hk, setf_self _ _ _, h1⟩ (.inr ⟨k, d, rfl⟩) rfl rfl rfl (learn_le _ _ _) rfl⟩
  | @evClear t k d u hq =>
    obtain ⟨hm, hon, hk, hl, hp⟩ := h.here hq
    have h2 := h.write (t := t) (d := .tc u) (.inr ⟨hl, hm⟩) (fun e => (by cases e))
      (fun _ e => (by cases e))
    refine ⟨g, h2.setTc (x := u) (o := none) hq ⟨hm, hon, hk, hl, hp, setf_self _ _ _⟩ rfl rfl
      (.inr ⟨k, d, rfl, rfl⟩) (.inr hl) (fun _ e => (by cases e)) (fun _ => .inr rfl)
      (fun e => ⟨rfl, rfl, h.quiet hm hl e⟩) ?_⟩
    intro u' hu' e
    exact absurd (Option.some.inj (hl.symm.trans e)).symm hu'
  | @evUnlock t k d u hq => exact ⟨g, h.evUnlock hq⟩
  | @evDone t k d hq h1 =>
    obtain ⟨hm, hon, hk⟩ := h.here hq
    have h2 := h.read (t := t) (d := .cfg) hm
    exact ⟨g, h2.move hq ⟨⟨hm, h1⟩, by
      cases k with
      | true => have e : d = 0 := hk.2 rfl; subst e; exact Nat.le_refl 1
      | false => exact hk.1, fun _ => hon⟩ rfl rfl rfl (.inl rfl)⟩
  | @resume t d hq =>
    obtain ⟨hM, hd1, hd⟩ := h.here hq
    exact ⟨g, Inv.move (μ := w.mem) h hq ⟨hM, Nat.le_zero.mp (Nat.le_of_succ_le_succ hd1),
      hd (Nat.succ_pos _)⟩ rfl rfl rfl (.inl rfl)⟩
  | @start t d hq h1 =>
    have h2 := h.write (t := t) (d := .cfg) (h.here hq).1.1 (fun e => (by cases e))
      (fun _ e => (by cases e))
    exact ⟨g, h2.move hq ⟨(h2.here hq).1, h1 rfl⟩ rfl rfl rfl (.inl rfl)⟩
  | @startOff t d ts m hq h1 h2 =>
    obtain ⟨hM, hd⟩ := h.here hq
    obtain ⟨h4, h5⟩ := h.seeTop hM.1 h1
    have hon : g.on = false := by
      cases e : g.on with
      | false => rfl
      | true => rw [e, h2] at h5; cases h5
    exact ⟨g, (h.load t .en ts m).move hq ⟨hM, hd, hon⟩ rfl rfl rfl (.inl rfl)⟩
  | @startOn t d ts m hq h1 h2 =>
    obtain ⟨hM, hd⟩ := h.here hq
    exact ⟨g, (h.load t .en ts m).move hq ⟨hM, ⟨by omega, fun e => by omega⟩, fun _ => hd⟩ rfl rfl rfl
      (.inl rfl)⟩
  | @newBuf t d ring size hq => exact ⟨g, h.newBuf ring size hq⟩
  | @turnOn t d ts hq h1 =>
    have hm : w.mutex = some t := (h.here hq).1.1
    have h2 := h.write (t := t) (d := .cfg) hm (fun e => (by cases e)) (fun _ e => (by cases e))
    have hk := h2.enKnow
    rw [mv_some (w := { w with mem := w.mem.write t .cfg }) hm] at hk
    have hf : (w.mem.view t).ts .en < ts := h1.2
    have hk' : g.top ≤ (w.mem.view t).ts .en := by
      have := h.enKnow; rw [mv_some hm] at this; exact this
    refine ⟨_, h2.enOn (ts := ts) hq (by omega) rfl (vle_see _ _ _) ?_ ?_ ?_ rfl rfl⟩
    · simp [View.see]; omega
    · simp only [Mem.storeRel, Mem.add, and_self, if_true]
    · intro i hi; simp [Mem.storeRel, Mem.add, hi]
  | @getBuf t d hq =>
    exact ⟨g, Inv.move (μ := w.mem) h hq ⟨(h.here hq).1, (h.here hq).2⟩ rfl rfl rfl (.inl rfl)⟩
  | @getBufOn t d ts m hq h1 h2 =>
    have h3 := h.load t .en ts m
    exact ⟨g, h3.move hq ⟨(h3.here hq).1, (h3.here hq).2⟩ rfl rfl rfl (.inl rfl)⟩
  | @getBufOff t d ts m hq h1 h2 =>
    obtain ⟨hM, hd⟩ := h.here hq
    obtain ⟨h4, h5⟩ := h.seeTop hM.1 h1
    have hon : g.on = false := by
      cases e : g.on with
      | false => rfl
      | true => rw [e, h2] at h5; cases h5
    exact ⟨g, (h.load t .en ts m).move hq ⟨hM, hd.1, hon⟩ rfl rfl rfl (.inl rfl)⟩
  | @take t d hq =>
    have h2 := h.read (t := t) (d := .cfg) (h.here hq).1.1
    exact ⟨g, h2.take hq⟩
  | @register t d hq h1 =>
    have h2 := h.write (t := t) (d := .cfg) (h.here hq).1.1 (fun e => (by cases e))
      (fun _ e => (by cases e))
    exact ⟨g, h2.register hq h1⟩
  | @deregister t d hq h1 =>
    have hp := h.here hq
    exact ⟨g, Inv.move (μ := w.mem) h hq ⟨hp.1, hp.2, h1⟩ rfl rfl rfl (.inl rfl)⟩
  | @dNone t d hq h1 =>
    obtain ⟨hM, hd, hr⟩ := h.here hq
    exact ⟨g, (h.read (d := .tc t) (.inl ⟨rfl, .inr hM.1⟩)).move hq ⟨hM, hd, hr, h1⟩ rfl rfl rfl
      (.inl rfl)⟩
  | @dSome t d c hq h1 =>
    obtain ⟨hM, hd, hr⟩ := h.here hq
    exact ⟨g, (h.read (d := .tc t) (.inl ⟨rfl, .inr hM.1⟩)).move hq ⟨hM, hd, hr, h1⟩ rfl rfl rfl
      (.inl rfl)⟩
  | @dReturnNone t d c hq h1 =>
    obtain ⟨hM, hd, hr, hc⟩ := h.here hq
    exact ⟨g, (h.read (d := .buf) (.inr hM.1)).move hq ⟨hM, hd, hr⟩ rfl rfl rfl (.inr rfl)⟩
  | @dReturn t d c b hq h1 =>
    obtain ⟨hM, hd, hr, hc⟩ := h.here hq
    have hh : held w t = some c := by rw [held_eq, hq]; exact hc
    have h2 := h.giveBack (p := .dClear d) hq ⟨hM, hd, hr⟩ rfl rfl rfl h1 hh rfl
    exact ⟨g, (h2.read (d := .buf) (.inr hM.1)).read (d := .obj b) (.inl ⟨h1, .inr hM.1⟩)⟩
  | @dClear t d hq =>
    obtain ⟨hM, hd, hr⟩ := h.here hq
    have h2 := h.write (d := .tc t) (.inl ⟨rfl, .inr hM.1⟩)
      (fun e => (by cases e)) (fun _ e => (by cases e))
    refine ⟨g, h2.setTc (x := t) (o := none) hq ⟨hM, hd, hr, setf_self _ _ _⟩ rfl rfl (.inl rfl)
      (.inl rfl) (fun _ e => (by cases e)) (fun _ => .inl rfl) (fun e => absurd rfl e) ?_⟩
    intro u hu e
    exact absurd (h.ownLk hM.1 e) hu
  | @dErase t d hq =>
    have h2 := h.write (t := t) (d := .cfg) (h.here hq).1.1 (fun e => (by cases e))
      (fun _ e => (by cases e))
    exact ⟨g, h2.dErase hq⟩
  | @ownRead t b i hq h1 =>
    exact ⟨g, (h.read (t := t) (d := .obj b) (.inr h1)).read (t := t) (d := .cell b i) (.inr h1)⟩
  | @ownGive t u b hq h1 =>
    have h2 := h.learn u (w.mem.view t)
    refine ⟨g, h2.setOwn (o := setf w.own b (some u)) (f := w.freed) ?_
      (fun b' e => (h.bufOk b' e).1) h.freshF⟩
    intro b' x hx
    by_cases e : b' = b
    · subst e
      rw [setf_self] at hx
      obtain rfl := Option.some.inj hx
      obtain ⟨h3, h4, h5, h6⟩ := h.ownOk b' t h1
      exact ⟨h3, h4, h5, fun d hd y => Nat.le_trans (h6 d hd y) ((learn_le _ _ _).2 y)⟩
    · rw [setf_ne _ _ e] at hx
      exact h2.ownOk b' x hx
  | @ownFree t b hq h1 =>
    obtain ⟨h3, h4, h5, h6⟩ := h.ownOk b t h1
    have h2 : Inv { w with mem := writeAll w.mem t (part b) } g := by
      refine h.mem (t := t) rfl (vle_tick _ _) rfl (fun k u hu => ⟨rfl, ?_⟩) (fun k => ?_) ⟨rfl, ?_⟩
      · show (if part b k then setf (w.mem.wr k) t ((w.mem.view t).clk t + 1) else w.mem.wr k) u = _
        split
        · exact setf_ne _ _ hu
        · rfl
      · cases e : part b k with
        | false =>
          left
          refine ⟨rfl, ?_⟩
          show (if part b k then setf (w.mem.wr k) t ((w.mem.view t).clk t + 1) else w.mem.wr k) t = _
          rw [e]; rfl
        | true =>
          right
          refine ⟨?_, ?_⟩
          · have h7 := h.mine k t
            have h8 : w.mem.rd k t ≤ acc w.mem k t := Nat.le_max_left _ _
            have h9 : (writeAll w.mem t (part b)).wr k t = (w.mem.view t).clk t + 1 := by
              show (if part b k then setf (w.mem.wr k) t ((w.mem.view t).clk t + 1)
                else w.mem.wr k) t = _
              rw [e, if_pos rfl, setf_self]
            have h10 : ((w.mem.view t).tick t).clk t = (w.mem.view t).clk t + 1 := by
              simp [View.tick]
            have h11 : (writeAll w.mem t (part b)).rd k t = w.mem.rd k t := rfl
            unfold acc
            rw [h9, h10, h11]; omega
          · cases k with
            | obj b' =>
              have : b' = b := by simpa [part] using e
              subst this; exact .inr h1
            | cell b' i =>
              have : b' = b := by simpa [part] using e
              subst this; exact .inr h1
            | _ => simp [part] at e
      · intro b' hb'
        have hne : b' ≠ b := by rintro rfl; exact h4 hb'
        show (if part b (.obj b') then setf _ t _ else _) t = _
        rw [if_neg (by simp [part, hne])]
    refine ⟨g, h2.setOwn (o := setf w.own b none) (f := setf w.freed b true) ?_ ?_ ?_⟩
    · intro b' x hx
      have e : b' ≠ b := by rintro rfl; rw [setf_self] at hx; cases hx
      rw [setf_ne _ _ e] at hx
      rw [setf_ne _ _ e]
      exact h2.ownOk b' x hx
    · intro b' hb'
      have hne : b' ≠ b := by rintro rfl; exact h4 hb'
      rw [setf_ne _ _ hne]; exact (h.bufOk b' hb').1
    · intro b' hb'
      have hne : b' ≠ b := by rintro rfl; exact absurd h5 (by have : w.cnt ≤ b' := hb'; omega)
      rw [setf_ne _ _ hne]; exact h.freshF b' hb'

theorem inv_reachable {w : St} (h : Reachable true w) : ∃ g, Inv w g := by
  induction h with
  | init => exact ⟨_, inv_init⟩
  | step _ hs ih =>
    obtain ⟨g, hg⟩ := ih
    exact inv_step hg hs

end Phosphor.TLog.W
