import Verif.Proof.TraceLogWeakCtl
namespace Phosphor.TLog.W
open Phosphor.Weak

/-- Nobody uses the buffer. -/
theorem Inv.dead {w : St} {g : Ghost} {t : Nat} (hM : M w t) (hon : g.on = false) (u : Nat) :
    ¬ live w g u := by
  rintro ⟨_, h | h⟩
  · rw [hon] at h; cases h
  · rw [hM.2 u] at h; cases h

theorem Inv.deadTc {w : St} {g : Ghost} (h : Inv w g) (hd : ∀ u, ¬ live w g u) (u : Nat) :
    w.tc u = none := by
  cases e : w.tc u with
  | none => rfl
  | some c => exact absurd (h.tcs u c e).1 (hd u)

theorem Inv.deadHeld {w : St} {g : Ghost} (h : Inv w g) (hd : ∀ u, ¬ live w g u) (u : Nat) :
    held w u = none := by
  have h1 := h.deadTc hd u
  have h2 := h.pcs u
  rw [held_eq]
  generalize w.pc u = p at h2
  cases p <;> first | exact h1 | rfl | exact absurd h2.1.2.1 (hd u)

theorem part_inj {a b : Nat} {d : Plain} (h1 : part a d = true) (h2 : part b d = true) : a = b := by
  cases d <;> simp_all [part]

/-- The program counters of the other threads, when thread `t` holds the mutex. -/
theorem Inv.others {w w' : St} {g g' : Ghost} (h : Inv w g) {t : Nat} {p : Pc}
    (hm : w.mutex = some t) (hpc : w'.pc = setf w.pc t p) (hp : PcOk w' g' t p)
    (hL : ∀ u, u ≠ t → L w g u → L w' g' u ∧ w'.buf = w.buf)
    (hlk : ∀ u, u ≠ t → ∀ x, w.lk x = some u → w'.lk x = some u ∧ w'.tc x = w.tc x)
    (hr : ∀ u, u ≠ t → w'.reg u = w.reg u) (htc : ∀ u, u ≠ t → w'.tc u = w.tc u) (u : Nat) :
    PcOk w' g' u (w'.pc u) := by
  rw [hpc]
  by_cases e : u = t
  · subst e; rw [setf_self]; exact hp
  · rw [setf_ne _ _ e]
    exact (h.pcs u).frame
      (fun hm' => by rw [hm] at hm'; exact absurd (Option.some.inj hm').symm e)
      (hL u e) (hlk u e) (hr u e) (htc u e)

theorem Inv.mpcM {w : St} {w' : St} {t : Nat} {p : Pc} (hm : w'.mutex = some t)
    (hpc : w'.pc = setf w.pc t p) (hp : inM p = true) (u : Nat) (hu : w'.mutex = some u) :
    inM (w'.pc u) = true := by
  rw [hm] at hu
  obtain rfl := Option.some.inj hu
  rw [hpc, setf_self]; exact hp

theorem Inv.lkpcM {w : St} {g : Ghost} (h : Inv w g) {w' : St} {t : Nat} {p : Pc}
    (hq : slave (w.pc t) = false) (hev : isEv (w.pc t) = false) (hpc : w'.pc = setf w.pc t p)
    (u s : Nat) (hu : w.lk u = some s) : (s = u ∧ slave (w'.pc u) = true) ∨
      ∃ k d, w'.pc s = .evClear k d u ∨ w'.pc s = .evUnlock k d u := by
  rw [hpc]
  rcases h.lkpc u s hu with ⟨h1, h2⟩ | ⟨k, d, h1⟩
  · have e : u ≠ t := by rintro rfl; rw [hq] at h2; cases h2
    exact .inl ⟨h1, by rw [setf_ne _ _ e]; exact h2⟩
  · have e' : s ≠ t := by
      rintro rfl
      have := not_ev hev k d u
      rcases h1 with h1 | h1
      · exact this.1 h1
      · exact this.2 h1
    exact .inr ⟨k, d, by rw [setf_ne _ _ e']; exact h1⟩

theorem held_other {w w' : St} {t : Nat} {p q : Pc} (hq : w.pc t = q)
    (hpc : w'.pc = setf w.pc t p) (htc : w'.tc = w.tc)
    (hh : heldP p (w.tc t) = heldP q (w.tc t)) (u : Nat) : held w' u = held w u := by
  rw [held_eq, held_eq, hpc, htc]
  by_cases e : u = t
  · subst e; rw [setf_self, hq]; exact hh
  · rw [setf_ne _ _ e]

/-- The mutex holder sets `enabled` to `false`. -/
theorem Inv.enOff {w : St} {g : Ghost} (h : Inv w g) {t ts : Nat} {p q : Pc}
    {μ : Mem Loc Nat Plain} {v x : View Loc} {pend : Nat → Bool}
    (hq : w.pc t = q) (hM : M w t) (hts : g.top < ts)
    (hv : μ.view = setf w.mem.view t v) (hle : VLe (w.mem.view t) v) (hvt : ts ≤ v.ts .en)
    (hh1 : μ.hist .en ts = some ⟨0, x⟩) (hh2 : ∀ i, i ≠ ts → μ.hist .en i = w.mem.hist .en i)
    (hrd : μ.rd = w.mem.rd) (hwr : μ.wr = w.mem.wr)
    (hpend : pend = if g.on then w.reg else w.pend)
    (hp : PcOk { w.goto t p μ with pend := pend } ⟨ts, false, g.rv⟩ t p)
    (hs : slave q = false) (hm : inM p = true) (hev : isEv q = false)
    (hh : heldP p (w.tc t) = heldP q (w.tc t)) :
    Inv { w.goto t p μ with pend := pend } ⟨ts, false, g.rv⟩ := by
  have hvu : ∀ u, VLe (w.mem.view u) (μ.view u) := by rw [hv]; exact vle_setf hle
  have hvt' : μ.view t = v := by rw [hv, setf_self]
  have hacc : ∀ d u, acc μ d u = acc w.mem d u := fun d u =>
    acc_congr (by rw [hrd]) (by rw [hwr])
  have hmv' : mv { w.goto t p μ with pend := pend } = v := by
    unfold mv; dsimp only [St.goto]; rw [hM.1]; exact hvt'
  have hmv : VLe (mv w) (mv { w.goto t p μ with pend := pend }) := by
    rw [hmv', mv_some hM.1]; exact hle
  have hlv : ∀ u, VLe (lv w u) (lv { w.goto t p μ with pend := pend } u) := by
    intro u; unfold lv; dsimp only [St.goto]; split
    · exact hvu _
    · exact VLe.refl _
  have hlive : ∀ u, live { w.goto t p μ with pend := pend } ⟨ts, false, g.rv⟩ u ↔ live w g u := by
    intro u
    unfold live
    dsimp only [St.goto]
    rw [hpend]
    cases e : g.on with
    | true => simp
    | false => simp
  have hheld := held_other (w := w) (w' := { w.goto t p μ with pend := pend }) hq rfl rfl hh
  exact {
    pcs := h.others hM.1 rfl hp
      (fun u _ hL => ⟨⟨hL.1, (hlive u).mpr hL.2.1,
        fun y => Nat.le_trans (hL.2.2 y) ((hvu u).2 y)⟩, rfl⟩)
      (fun _ _ _ hx => ⟨hx, rfl⟩) (fun _ _ => rfl) (fun _ _ => rfl)
    mpc := Inv.mpcM (w := w) hM.1 rfl hm
    lkpc := h.lkpcM (by rw [hq]; exact hs) (by rw [hq]; exact hev) rfl
    mfree := fun hc => by have := hM.1.symm.trans hc; cases this
    penReg := by
      intro u hu
      dsimp only at hu
      rw [hpend] at hu
      cases e : g.on with
      | true => rw [e] at hu; exact hu
      | false => rw [e] at hu; exact h.penReg u hu
    enTop := ⟨x, hh1, fun e => by cases e⟩
    enMax := by
      intro i m hi
      by_cases e : i = ts
      · subst e; exact Nat.le_refl _
      · have := h.enMax i m (by rw [← hh2 i e]; exact hi)
        show i ≤ ts
        omega
    enKnow := by rw [hmv']; exact hvt
    run := by
      intro u i m h1 h2 h3 h4 h5
      rw [hlive]
      by_cases e : i = ts
      · subst e
        have h2' : μ.hist .en i = some m := h2
        rw [hh1] at h2'
        obtain rfl := Option.some.inj h2'
        exact absurd rfl h3
      · exact h.run u i m h1 (by rw [← hh2 i e]; exact h2) h3
          (Nat.le_trans ((hvu u).1 _) h4) (Nat.le_trans ((hlv u).1 _) h5)
    act := by
      intro ha
      have ha' : g.on = true ∨ ∃ u, w.pend u = true := by
        rcases ha with e | ⟨u, hu⟩
        · cases e
        · dsimp only at hu
          rw [hpend] at hu
          cases e : g.on with
          | true => exact .inl rfl
          | false => rw [e] at hu; exact .inr ⟨u, hu⟩
      obtain ⟨b, h1, h2, h3⟩ := h.act ha'
      refine ⟨b, h1, fun u => ?_, fun i hi u => ?_⟩
      · show μ.wr _ _ ≤ _ ∧ μ.wr _ _ ≤ _
        rw [hwr]; exact h2 u
      · show acc μ _ _ ≤ _
        rw [hacc]; exact h3 i hi u
    tcs := by
      intro u c hc
      rw [hlive]
      have := h.tcs u c hc
      exact ⟨this.1, fun y => Nat.le_trans (this.2 y) ((hvu u).2 y)⟩
    heldOk := by
      intro u c hc
      rw [hheld] at hc
      obtain ⟨h1, h2, h3⟩ := h.heldOk u c hc
      refine ⟨h1, h2, fun y => ?_⟩
      show acc μ _ _ ≤ _
      rw [hacc]; exact Nat.le_trans (h3 y) ((hvu u).2 y)
    heldInj := by
      intro a b c h1 h2
      rw [hheld] at h1 h2
      exact h.heldInj a b c h1 h2
    bagOk := by
      intro b hb c y hc
      obtain ⟨h1, h2, h3, h4⟩ := h.bagOk b hb c y hc
      refine ⟨h1, h2, fun u => by rw [hheld]; exact h3 u, fun u => ?_⟩
      show acc μ _ _ ≤ _
      rw [hacc]; exact h4 u
    bagNodup := h.bagNodup
    cur := by
      intro d hd u
      rw [hlive]
      show acc μ _ _ ≤ _ ∧ (_ → acc μ _ _ ≤ _)
      rw [hacc]
      obtain ⟨h1, h2⟩ := h.cur d hd u
      exact ⟨by have := (hlv u).2 u; have := hmv.2 u; omega,
        fun hn => Nat.le_trans (h2 hn) (hmv.2 u)⟩
    wrM := by
      intro u
      show μ.wr _ _ ≤ _ ∧ ∀ b, _ → μ.wr _ _ ≤ _
      rw [hwr]
      exact ⟨Nat.le_trans (h.wrM u).1 (hmv.2 u),
        fun b hb => Nat.le_trans ((h.wrM u).2 b hb) (hmv.2 u)⟩
    tcl := by
      intro y u
      show (_ → acc μ _ _ ≤ _ ∧ acc μ _ _ ≤ _) ∧ acc μ _ _ ≤ _
      rw [hacc, hacc]
      obtain ⟨h1, h2⟩ := h.tcl y u
      exact ⟨fun hne => ⟨Nat.le_trans (h1 hne).1 ((hlv y).2 u), Nat.le_trans (h1 hne).2 (hmv.2 u)⟩,
        by have := (hlv y).2 y; have := hmv.2 y; omega⟩
    cfg := by
      intro u
      show acc μ _ _ ≤ _
      rw [hacc]; exact Nat.le_trans (h.cfg u) (hmv.2 u)
    ownOk := by
      intro b u hb
      obtain ⟨h1, h2, h3, h4⟩ := h.ownOk b u hb
      refine ⟨h1, h2, h3, fun d hd y => ?_⟩
      show acc μ _ _ ≤ _
      rw [hacc]; exact Nat.le_trans (h4 d hd y) ((hvu u).2 y)
    bufOk := h.bufOk
    fresh := by
      intro b d hb hd u
      show acc μ _ _ = 0
      rw [hacc]; exact h.fresh b d hb hd u
    freshF := h.freshF
    mine := by
      intro d u
      show acc μ _ _ ≤ _
      rw [hacc]; exact Nat.le_trans (h.mine d u) ((hvu u).2 u) }

/-- The mutex holder sets `enabled` to `true`. -/
theorem Inv.enOn {w : St} {g : Ghost} (h : Inv w g) {t ts d : Nat}
    {μ : Mem Loc Nat Plain} {v : View Loc}
    (hq : w.pc t = .turnOn d) (hts : g.top < ts)
    (hv : μ.view = setf w.mem.view t v) (hle : VLe (w.mem.view t) v) (hvt : ts ≤ v.ts .en)
    (hh1 : μ.hist .en ts = some ⟨1, v⟩) (hh2 : ∀ i, i ≠ ts → μ.hist .en i = w.mem.hist .en i)
    (hrd : μ.rd = w.mem.rd) (hwr : μ.wr = w.mem.wr) :
    Inv (w.goto t (.crit d) μ) ⟨ts, true, v.clk⟩ := by
  have hpq := h.pcs t
  rw [hq] at hpq
  obtain ⟨hM, hd0, hon, hbn⟩ := hpq
  have hdead := Inv.dead (g := g) hM hon
  have hvu : ∀ u, VLe (w.mem.view u) (μ.view u) := by rw [hv]; exact vle_setf hle
  have hvt' : μ.view t = v := by rw [hv, setf_self]
  have hacc : ∀ d u, acc μ d u = acc w.mem d u := fun d u =>
    acc_congr (by rw [hrd]) (by rw [hwr])
  have hmv' : mv (w.goto t (.crit d) μ) = v := by
    unfold mv; dsimp only [St.goto]; rw [hM.1]; exact hvt'
  have hmv : VLe (mv w) v := by rw [mv_some hM.1]; exact hle
  have hlv : ∀ u, VLe (lv w u) (lv (w.goto t (.crit d) μ) u) := by
    intro u; unfold lv; dsimp only [St.goto]; split
    · exact hvu _
    · exact VLe.refl _
  have hheld : ∀ u, held (w.goto t (.crit d) μ) u = none := fun u => by
    rw [held_other (w := w) (w' := w.goto t (.crit d) μ) hq rfl rfl rfl]
    exact h.deadHeld hdead u
  exact {
    pcs := h.others hM.1 rfl ⟨hM, by omega, fun e => by omega⟩
      (fun u _ hL => absurd hL.2.1 (hdead u))
      (fun _ _ _ hx => ⟨hx, rfl⟩) (fun _ _ => rfl) (fun _ _ => rfl)
    mpc := Inv.mpcM (w := w) hM.1 rfl rfl
    lkpc := h.lkpcM (by rw [hq]; rfl) (by rw [hq]; rfl) rfl
    mfree := fun hc => by have := hM.1.symm.trans hc; cases this
    penReg := h.penReg
    enTop := ⟨v, hh1, fun _ _ => Nat.le_refl _⟩
    enMax := by
      intro i m hi
      by_cases e : i = ts
      · subst e; exact Nat.le_refl _
      · have := h.enMax i m (by rw [← hh2 i e]; exact hi)
        show i ≤ ts
        omega
    enKnow := by rw [hmv']; exact hvt
    run := by
      intro u i m h1 h2 h3 h4 h5
      by_cases e : i = ts
      · subst e
        have h2' : μ.hist .en i = some m := h2
        rw [hh1] at h2'
        obtain rfl := Option.some.inj h2'
        exact ⟨⟨h1, .inl rfl⟩, fun _ => Nat.le_refl _⟩
      · exact absurd (h.run u i m h1 (by rw [← hh2 i e]; exact h2) h3
          (Nat.le_trans ((hvu u).1 _) h4) (Nat.le_trans ((hlv u).1 _) h5)).1 (hdead u)
    act := by
      intro _
      cases e : w.buf with
      | none => exact absurd e hbn
      | some b =>
        refine ⟨b, e, fun u => ?_, fun i hi u => ?_⟩
        · show μ.wr _ _ ≤ _ ∧ μ.wr _ _ ≤ _
          rw [hwr]
          exact ⟨Nat.le_trans (h.wrM u).1 (hmv.2 u), Nat.le_trans ((h.wrM u).2 b e) (hmv.2 u)⟩
        · show acc μ _ _ ≤ _
          rw [hacc]
          exact Nat.le_trans ((h.cur (.cell b i) (.inr ⟨b, e, by simp [part]⟩) u).2 (hdead u))
            (hmv.2 u)
    tcs := by
      intro u c hc
      have : w.tc u = some c := hc
      rw [h.deadTc hdead u] at this; cases this
    heldOk := by intro u c hc; rw [hheld] at hc; cases hc
    heldInj := by intro a b c hc; rw [hheld] at hc; cases hc
    bagOk := by
      intro b hb c y hc
      obtain ⟨h1, h2, h3, h4⟩ := h.bagOk b hb c y hc
      refine ⟨h1, h2, fun u => (by rw [hheld]; exact fun e => (by cases e)), fun u => ?_⟩
      show acc μ _ _ ≤ _
      rw [hacc]; exact h4 u
    bagNodup := h.bagNodup
    cur := by
      intro d' hd u
      rw [hmv']
      show acc μ _ _ ≤ _ ∧ (_ → acc μ _ _ ≤ _)
      rw [hacc]
      have := Nat.le_trans ((h.cur d' hd u).2 (hdead u)) (hmv.2 u)
      exact ⟨by omega, fun _ => this⟩
    wrM := by
      intro u
      rw [hmv']
      show μ.wr _ _ ≤ _ ∧ ∀ b, _ → μ.wr _ _ ≤ _
      rw [hwr]
      exact ⟨Nat.le_trans (h.wrM u).1 (hmv.2 u),
        fun b hb => Nat.le_trans ((h.wrM u).2 b hb) (hmv.2 u)⟩
    tcl := by
      intro y u
      rw [hmv']
      show (_ → acc μ _ _ ≤ _ ∧ acc μ _ _ ≤ _) ∧ acc μ _ _ ≤ _
      rw [hacc, hacc]
      obtain ⟨h1, h2⟩ := h.tcl y u
      exact ⟨fun hne => ⟨Nat.le_trans (h1 hne).1 ((hlv y).2 u), Nat.le_trans (h1 hne).2 (hmv.2 u)⟩,
        by have := (hlv y).2 y; have := hmv.2 y; omega⟩
    cfg := by
      intro u
      rw [hmv']
      show acc μ _ _ ≤ _
      rw [hacc]; exact Nat.le_trans (h.cfg u) (hmv.2 u)
    ownOk := by
      intro b u hb
      obtain ⟨h1, h2, h3, h4⟩ := h.ownOk b u hb
      refine ⟨h1, h2, h3, fun d hd y => ?_⟩
      show acc μ _ _ ≤ _
      rw [hacc]; exact Nat.le_trans (h4 d hd y) ((hvu u).2 y)
    bufOk := h.bufOk
    fresh := by
      intro b d hb hd u
      show acc μ _ _ = 0
      rw [hacc]; exact h.fresh b d hb hd u
    freshF := h.freshF
    mine := by
      intro d u
      show acc μ _ _ ≤ _
      rw [hacc]; exact Nat.le_trans (h.mine d u) ((hvu u).2 u) }

/-- The evicting thread is done with `x`. -/
theorem Inv.evUnlock {w : St} {g : Ghost} (h : Inv w g) {t x d : Nat} {k : Bool}
    (hq : w.pc t = .evUnlock k d x) :
    Inv { w.goto t (.evict k d) w.mem with
        lk := setf w.lk x none
        lview := setf w.lview x (w.mem.view t)
        pend := setf w.pend x false } g := by
  have hpq := h.pcs t
  rw [hq] at hpq
  obtain ⟨hm, hon, hk, hlx, hpx, htx⟩ := hpq
  let w' : St := { w.goto t (.evict k d) w.mem with
        lk := setf w.lk x none
        lview := setf w.lview x (w.mem.view t)
        pend := setf w.pend x false }
  show Inv w' g
  have hmv : mv w' = mv w := rfl
  have hlvx : lv w' x = w.mem.view t := by
    unfold lv; dsimp only [w', St.goto]; rw [setf_self, setf_self]
  have hlvo : lv w x = w.mem.view t := lv_some hlx
  have hlv : ∀ u, lv w' u = lv w u := by
    intro u
    by_cases e : u = x
    · subst e; rw [hlvx, hlvo]
    · unfold lv; dsimp only [w', St.goto]; rw [setf_ne _ _ e, setf_ne _ _ e]
  have hlive : ∀ u, u ≠ x → (live w' g u ↔ live w g u) := by
    intro u hu
    unfold live; dsimp only [w', St.goto]; rw [setf_ne _ _ hu]
  have hdx : ∀ u, live w' g u → u ≠ x := by
    rintro u ⟨_, h1 | h1⟩ rfl
    · rw [hon] at h1; cases h1
    · dsimp only [w', St.goto] at h1; rw [setf_self] at h1; cases h1
  have hheld : ∀ u, held w' u = held w u := held_other hq rfl rfl rfl
  have hlx' : ∀ u, u ≠ t → ∀ y, w.lk y = some u → y ≠ x := by
    rintro u hu y hy rfl
    rw [hlx] at hy; exact hu (Option.some.inj hy).symm
  exact {
    pcs := h.others hm rfl ⟨hm, hon, hk⟩
      (fun u hu hL => by
        have hux := hlx' u hu u hL.1
        exact ⟨⟨by dsimp only [w', St.goto]; rw [setf_ne _ _ hux]; exact hL.1,
          (hlive u hux).mpr hL.2.1, hL.2.2⟩, rfl⟩)
      (fun u hu y hy => ⟨by dsimp only [w', St.goto]; rw [setf_ne _ _ (hlx' u hu y hy)]; exact hy,
        rfl⟩) (fun _ _ => rfl) (fun _ _ => rfl)
    mpc := Inv.mpcM (w := w) hm rfl rfl
    lkpc := by
      intro u s hu
      dsimp only [w', St.goto] at hu
      have e : u ≠ x := by rintro rfl; rw [setf_self] at hu; cases hu
      rw [setf_ne _ _ e] at hu
      show (s = u ∧ slave (setf w.pc t _ u) = true) ∨
        ∃ k d, setf w.pc t _ s = .evClear k d u ∨ setf w.pc t _ s = .evUnlock k d u
      rcases h.lkpc u s hu with ⟨h1, h2⟩ | ⟨k', d', h1⟩
      · have e : u ≠ t := by rintro rfl; rw [hq] at h2; cases h2
        exact .inl ⟨h1, by rw [setf_ne _ _ e]; exact h2⟩
      · have e' : s ≠ t := by
          rintro rfl
          rw [hq] at h1
          rcases h1 with h1 | h1
          · cases h1
          · cases h1; exact e rfl
        exact .inr ⟨k', d', by rw [setf_ne _ _ e']; exact h1⟩
    mfree := fun hc => by have := hm.symm.trans hc; cases this
    penReg := by
      intro u hu
      dsimp only [w', St.goto] at hu
      have e : u ≠ x := by rintro rfl; rw [setf_self] at hu; cases hu
      rw [setf_ne _ _ e] at hu
      exact h.penReg u hu
    enTop := h.enTop
    enMax := h.enMax
    enKnow := h.enKnow
    run := by
      intro u ts m h1 h2 h3 h4 h5
      rw [hlv] at h5
      by_cases e : u = x
      · subst e
        exfalso
        rw [hlvo] at h5
        have h6 := h.enKnow
        rw [mv_some hm] at h6
        have h7 := h.enMax ts m h2
        have h8 : ts = g.top := by omega
        obtain ⟨v, hv, _⟩ := h.enTop
        have h2' : w.mem.hist .en ts = some m := h2
        rw [h8, hv] at h2'
        rw [← Option.some.inj h2', hon] at h3
        exact h3 rfl
      · rw [hlive u e]
        exact h.run u ts m h1 h2 h3 h4 h5
    act := by
      intro ha
      refine h.act ?_
      rcases ha with e | ⟨u, hu⟩
      · exact .inl e
      · dsimp only [w', St.goto] at hu
        have e : u ≠ x := by rintro rfl; rw [setf_self] at hu; cases hu
        rw [setf_ne _ _ e] at hu
        exact .inr ⟨u, hu⟩
    tcs := by
      intro u c hc
      have hc' : w.tc u = some c := hc
      have e : u ≠ x := by rintro rfl; rw [htx] at hc'; cases hc'
      rw [hlive u e]
      exact h.tcs u c hc
    heldOk := by intro u c hc; rw [hheld] at hc; exact h.heldOk u c hc
    heldInj := by intro a b c h1 h2; rw [hheld] at h1 h2; exact h.heldInj a b c h1 h2
    bagOk := by
      intro b hb c v hc
      obtain ⟨h1, h2, h3, h4⟩ := h.bagOk b hb c v hc
      exact ⟨h1, h2, fun u => by rw [hheld]; exact h3 u, h4⟩
    bagNodup := h.bagNodup
    cur := by
      intro d' hd u
      rw [hlv, hmv]
      obtain ⟨h1, h2⟩ := h.cur d' hd u
      refine ⟨h1, fun hn => ?_⟩
      by_cases e : u = x
      · subst e
        rw [hlvo, mv_some hm] at h1
        rw [mv_some hm]
        have h1' : acc w.mem d' u ≤ _ := h1
        show acc w.mem d' u ≤ _
        omega
      · exact h2 fun hl => hn ((hlive u e).mpr hl)
    wrM := h.wrM
    tcl := by
      intro y u
      rw [hlv, hmv]
      exact h.tcl y u
    cfg := h.cfg
    ownOk := h.ownOk
    bufOk := h.bufOk
    fresh := h.fresh
    freshF := h.freshF
    mine := h.mine }

/-- Thread `t` enters the set of tenants. -/
theorem Inv.register {w : St} {g : Ghost} (h : Inv w g) {t d : Nat}
    (hq : w.pc t = .crit d) (hr : w.reg t = false) :
    Inv { w.goto t (.crit d) w.mem with reg := setf w.reg t true } g := by
  have hpq := h.pcs t
  rw [hq] at hpq
  obtain ⟨hM, hd⟩ := hpq
  have hreg : ∀ u, u ≠ t → setf w.reg t true u = w.reg u := fun u hu => setf_ne _ _ hu
  let w' : St := { w.goto t (.crit d) w.mem with reg := setf w.reg t true }
  show Inv w' g
  have hlive : ∀ u, u ≠ t → (live w' g u ↔ live w g u) := by
    intro u hu
    unfold live; dsimp only [w', St.goto]; rw [hreg u hu]
  have hl1 : ∀ u, live w g u → live w' g u := by
    intro u hl
    have : u ≠ t := by rintro rfl; have := hl.1; rw [hr] at this; cases this
    exact (hlive u this).mpr hl
  have hheld : ∀ u, held w' u = held w u := held_other hq rfl rfl rfl
  exact {
    pcs := h.others hM.1 rfl ⟨hM, hd⟩
      (fun u _ hL => ⟨⟨hL.1, hl1 u hL.2.1, hL.2.2⟩, rfl⟩)
      (fun _ _ _ hx => ⟨hx, rfl⟩) (fun u hu => hreg u hu) (fun _ _ => rfl)
    mpc := Inv.mpcM (w := w) hM.1 rfl rfl
    lkpc := h.lkpcM (by rw [hq]; rfl) (by rw [hq]; rfl) rfl
    mfree := fun hc => by have := hM.1.symm.trans hc; cases this
    penReg := by
      intro u hu
      have := hM.2 u
      rw [show w.pend u = true from hu] at this; cases this
    enTop := h.enTop
    enMax := h.enMax
    enKnow := h.enKnow
    run := by
      intro u ts m h1 h2 h3 h4 h5
      by_cases e : u = t
      · subst e
        have h6 := h.enKnow
        rw [mv_some hM.1] at h6
        have h7 := h.enMax ts m h2
        have h4' : (w.mem.view u).ts .en ≤ ts := h4
        have h8 : ts = g.top := by omega
        obtain ⟨v, hv, hrv⟩ := h.enTop
        have h2' : w.mem.hist .en ts = some m := h2
        rw [h8, hv] at h2'
        obtain rfl := Option.some.inj h2'
        have hon : g.on = true := by
          cases e : g.on with
          | true => rfl
          | false => rw [e] at h3; exact absurd rfl h3
        exact ⟨⟨h1, .inl hon⟩, hrv hon⟩
      · rw [hlive u e]
        exact h.run u ts m (by rw [← hreg u e]; exact h1) h2 h3 h4 h5
    act := h.act
    tcs := by
      intro u c hc
      have := h.tcs u c hc
      exact ⟨hl1 u this.1, this.2⟩
    heldOk := by intro u c hc; rw [hheld] at hc; exact h.heldOk u c hc
    heldInj := by intro a b c h1 h2; rw [hheld] at h1 h2; exact h.heldInj a b c h1 h2
    bagOk := by
      intro b hb c v hc
      obtain ⟨h1, h2, h3, h4⟩ := h.bagOk b hb c v hc
      exact ⟨h1, h2, fun u => by rw [hheld]; exact h3 u, h4⟩
    bagNodup := h.bagNodup
    cur := by
      intro d' hd u
      obtain ⟨h1, h2⟩ := h.cur d' hd u
      exact ⟨h1, fun hn => h2 fun hl => hn (hl1 u hl)⟩
    wrM := h.wrM
    tcl := h.tcl
    cfg := h.cfg
    ownOk := h.ownOk
    bufOk := h.bufOk
    fresh := h.fresh
    freshF := h.freshF
    mine := h.mine }

/-- Thread `t` leaves the set of tenants. -/
theorem Inv.dErase {w : St} {g : Ghost} (h : Inv w g) {t d : Nat} (hq : w.pc t = .dErase d) :
    Inv { w.goto t (.crit d) w.mem with reg := setf w.reg t false } g := by
  have hpq := h.pcs t
  rw [hq] at hpq
  obtain ⟨hM, hd, hrt, htc⟩ := hpq
  have hreg : ∀ u, u ≠ t → setf w.reg t false u = w.reg u := fun u hu => setf_ne _ _ hu
  let w' : St := { w.goto t (.crit d) w.mem with reg := setf w.reg t false }
  show Inv w' g
  have hlive : ∀ u, u ≠ t → (live w' g u ↔ live w g u) := by
    intro u hu
    unfold live; dsimp only [w', St.goto]; rw [hreg u hu]
  have hheld : ∀ u, held w' u = held w u := held_other hq rfl rfl rfl
  exact {
    pcs := h.others hM.1 rfl ⟨hM, hd⟩
      (fun u hu hL => ⟨⟨hL.1, (hlive u hu).mpr hL.2.1, hL.2.2⟩, rfl⟩)
      (fun _ _ _ hx => ⟨hx, rfl⟩) (fun u hu => hreg u hu) (fun _ _ => rfl)
    mpc := Inv.mpcM (w := w) hM.1 rfl rfl
    lkpc := h.lkpcM (by rw [hq]; rfl) (by rw [hq]; rfl) rfl
    mfree := fun hc => by have := hM.1.symm.trans hc; cases this
    penReg := by
      intro u hu
      have := hM.2 u
      rw [show w.pend u = true from hu] at this; cases this
    enTop := h.enTop
    enMax := h.enMax
    enKnow := h.enKnow
    run := by
      intro u ts m h1 h2 h3 h4 h5
      have e : u ≠ t := by
        rintro rfl
        have h1' : setf w.reg u false u = true := h1
        rw [setf_self] at h1'; cases h1'
      rw [hlive u e]
      exact h.run u ts m (by rw [← hreg u e]; exact h1) h2 h3 h4 h5
    act := h.act
    tcs := by
      intro u c hc
      have hc' : w.tc u = some c := hc
      have e : u ≠ t := by rintro rfl; rw [htc] at hc'; cases hc'
      rw [hlive u e]
      exact h.tcs u c hc
    heldOk := by intro u c hc; rw [hheld] at hc; exact h.heldOk u c hc
    heldInj := by intro a b c h1 h2; rw [hheld] at h1 h2; exact h.heldInj a b c h1 h2
    bagOk := by
      intro b hb c v hc
      obtain ⟨h1, h2, h3, h4⟩ := h.bagOk b hb c v hc
      exact ⟨h1, h2, fun u => by rw [hheld]; exact h3 u, h4⟩
    bagNodup := h.bagNodup
    cur := by
      intro d' hd u
      obtain ⟨h1, h2⟩ := h.cur d' hd u
      refine ⟨h1, fun hn => ?_⟩
      by_cases e : u = t
      · subst e
        have := h.mine d' u
        rw [show mv w' = mv w from rfl, mv_some hM.1]; exact this
      · exact h2 fun hl => hn ((hlive u e).mpr hl)
    wrM := h.wrM
    tcl := h.tcl
    cfg := h.cfg
    ownOk := h.ownOk
    bufOk := h.bufOk
    fresh := h.fresh
    freshF := h.freshF
    mine := h.mine }

/-- A buffer changes hands or is destroyed by its owner. -/
theorem Inv.setOwn {w : St} {g : Ghost} (h : Inv w g) {o : Nat → Option Nat} {f : Nat → Bool}
    (ho : ∀ b t, o b = some t → f b = false ∧ w.buf ≠ some b ∧ b < w.cnt ∧
      ∀ d, part b d = true → ∀ u, acc w.mem d u ≤ (w.mem.view t).clk u)
    (hb : ∀ b, w.buf = some b → f b = false) (hf : ∀ b, w.cnt ≤ b → f b = false) :
    Inv { w with own := o, freed := f } g :=
  { h with
    pcs := fun t => (h.pcs t).mono rfl rfl rfl rfl rfl rfl (fun _ => Nat.le_refl _)
    ownOk := ho
    bufOk := fun b e => ⟨hb b e, (h.bufOk b e).2⟩
    freshF := hf }

/-- A buffer is replaced. -/
theorem Inv.newBuf {w : St} {g : Ghost} (h : Inv w g) {t d : Nat} (ring : Bool) (size : Nat)
    (hq : w.pc t = .newBuf d) :
    Inv { w.goto t (.turnOn d) (writeAll w.mem t fun k =>
            k == .buf || part w.cnt k || w.buf.any fun h => part h k) with
        buf := some w.cnt
        bufs := setf w.bufs w.cnt ⟨ring, size, 0, []⟩
        cnt := w.cnt + 1
        freed := fun h => w.freed h || w.buf == some h } g := by
  have hpq := h.pcs t
  rw [hq] at hpq
  obtain ⟨hM, hd, hon⟩ := hpq
  have hdead := Inv.dead (g := g) hM hon
  generalize hP : (fun k : Plain => k == .buf || part w.cnt k || w.buf.any fun h => part h k) = P
  let μ := writeAll w.mem t P
  let v := (w.mem.view t).tick t
  let w' : St := { w.goto t (.turnOn d) μ with
        buf := some w.cnt
        bufs := setf w.bufs w.cnt ⟨ring, size, 0, []⟩
        cnt := w.cnt + 1
        freed := fun h => w.freed h || w.buf == some h }
  show Inv w' g
  have hv : μ.view = setf w.mem.view t v := rfl
  have hle : VLe (w.mem.view t) v := vle_tick _ _
  have hvu : ∀ u, VLe (w.mem.view u) (μ.view u) := by rw [hv]; exact vle_setf hle
  have hvt' : μ.view t = v := by rw [hv, setf_self]
  have hvc : v.clk t = (w.mem.view t).clk t + 1 := by simp [v, View.tick]
  have hmv' : mv w' = v := by
    unfold mv; dsimp only [w', St.goto]; rw [hM.1]; exact hvt'
  have hmv : VLe (mv w) v := by rw [mv_some hM.1]; exact hle
  have hlv : ∀ u, VLe (lv w u) (lv w' u) := by
    intro u; unfold lv; dsimp only [w', St.goto]; split
    · exact hvu _
    · exact VLe.refl _
  have hsame : ∀ k u, (P k = false ∨ u ≠ t) → acc μ k u = acc w.mem k u := by
    intro k u hk
    refine acc_congr rfl ?_
    show (if P k then setf (w.mem.wr k) t ((w.mem.view t).clk t + 1) else w.mem.wr k) u = _
    split
    · rename_i hPk
      rcases hk with hk | hk
      · rw [hk] at hPk; cases hPk
      · exact setf_ne _ _ hk
    · rfl
  have hself : ∀ k, acc μ k t ≤ v.clk t := by
    intro k
    have h1 := h.mine k t
    have h2 : w.mem.rd k t ≤ acc w.mem k t := Nat.le_max_left _ _
    have h3 := wr_le_acc w.mem k t
    have h4 : μ.wr k t ≤ (w.mem.view t).clk t + 1 := by
      show (if P k then setf (w.mem.wr k) t ((w.mem.view t).clk t + 1) else w.mem.wr k) t ≤ _
      split
      · rw [setf_self]; exact Nat.le_refl _
      · omega
    have h5 : μ.rd k t = w.mem.rd k t := rfl
    unfold acc
    rw [hvc, h5]; omega
  have hPtc : ∀ x, P (.tc x) = false := by
    intro x; rw [← hP]; cases e : w.buf <;> simp [part]
  have hPcfg : P .cfg = false := by
    rw [← hP]; cases e : w.buf <;> simp [part]
  have hPpart : ∀ b k, part b k = true → b ≠ w.cnt → w.buf ≠ some b → P k = false := by
    intro b k hk h1 h2
    have h3 : k ≠ .buf := by rintro rfl; simp [part] at hk
    have h4 : part w.cnt k = false := by
      cases e : part w.cnt k with
      | false => rfl
      | true => exact absurd (part_inj hk e) h1
    rw [← hP]
    cases e : w.buf with
    | none => simp [h3, h4]
    | some b' =>
      have h5 : part b' k = false := by
        cases e' : part b' k with
        | false => rfl
        | true => rw [part_inj hk e'] at h2; exact absurd e h2
      simp [h3, h4, h5]
  have hbc : w.buf ≠ some w.cnt := fun e => absurd (h.bufOk _ e).2 (Nat.lt_irrefl _)
  have hheld : ∀ u, held w' u = none := fun u => by
    rw [held_other (w := w) (w' := w') hq rfl rfl rfl]
    exact h.deadHeld hdead u
  have hcur : ∀ d', curLoc w' d' → ∀ u, acc μ d' u ≤ v.clk u := by
    intro d' hd' u
    by_cases e : u = t
    · subst e; exact hself d'
    · rw [hsame d' u (.inr e)]
      rcases hd' with rfl | ⟨b, hb, hp⟩
      · exact Nat.le_trans ((h.cur .buf (.inl rfl) u).2 (hdead u)) (hmv.2 u)
      · obtain rfl := Option.some.inj hb
        rw [h.fresh _ d' (Nat.le_refl _) hp u]; exact Nat.zero_le _
  exact {
    pcs := h.others hM.1 rfl ⟨hM, hd, hon, fun e => by cases e⟩
      (fun u _ hL => absurd hL.2.1 (hdead u))
      (fun _ _ _ hx => ⟨hx, rfl⟩) (fun _ _ => rfl) (fun _ _ => rfl)
    mpc := Inv.mpcM (w := w) hM.1 rfl rfl
    lkpc := h.lkpcM (by rw [hq]; rfl) (by rw [hq]; rfl) rfl
    mfree := fun hc => by have := hM.1.symm.trans hc; cases this
    penReg := h.penReg
    enTop := h.enTop
    enMax := h.enMax
    enKnow := by rw [hmv']; exact Nat.le_trans h.enKnow (hmv.1 _)
    run := by
      intro u i m h1 h2 h3 h4 h5
      exact absurd (h.run u i m h1 h2 h3
          (Nat.le_trans ((hvu u).1 _) h4) (Nat.le_trans ((hlv u).1 _) h5)).1 (hdead u)
    act := by
      intro ha
      rcases ha with e | ⟨u, hu⟩
      · rw [hon] at e; cases e
      · rw [show w'.pend u = false from hM.2 u] at hu; cases hu
    tcs := by
      intro u c hc
      have : w.tc u = some c := hc
      rw [h.deadTc hdead u] at this; cases this
    heldOk := by intro u c hc; rw [hheld] at hc; cases hc
    heldInj := by intro a b c hc; rw [hheld] at hc; cases hc
    bagOk := by
      intro b hb c y hc
      obtain rfl := Option.some.inj hb
      dsimp only [w'] at hc
      rw [setf_self] at hc
      cases hc
    bagNodup := by
      intro b hb
      obtain rfl := Option.some.inj hb
      dsimp only [w']
      rw [setf_self]
      exact List.nodup_nil
    cur := by
      intro d' hd' u
      rw [hmv']
      have : acc w'.mem d' u ≤ v.clk u := hcur d' hd' u
      exact ⟨by omega, fun _ => this⟩
    wrM := by
      intro u
      rw [hmv']
      refine ⟨Nat.le_trans (wr_le_acc _ _ _) (hcur .buf (.inl rfl) u), fun b hb => ?_⟩
      exact Nat.le_trans (wr_le_acc _ _ _) (hcur (.obj b) (.inr ⟨b, hb, by simp [part]⟩) u)
    tcl := by
      intro y u
      rw [hmv']
      show (_ → acc μ _ _ ≤ _ ∧ acc μ _ _ ≤ _) ∧ acc μ _ _ ≤ _
      rw [hsame _ _ (.inl (hPtc y)), hsame _ _ (.inl (hPtc y))]
      obtain ⟨h1, h2⟩ := h.tcl y u
      exact ⟨fun hne => ⟨Nat.le_trans (h1 hne).1 ((hlv y).2 u), Nat.le_trans (h1 hne).2 (hmv.2 u)⟩,
        by have := (hlv y).2 y; have := hmv.2 y; omega⟩
    cfg := by
      intro u
      rw [hmv']
      show acc μ _ _ ≤ _
      rw [hsame _ _ (.inl hPcfg)]; exact Nat.le_trans (h.cfg u) (hmv.2 u)
    ownOk := by
      intro b u hb
      obtain ⟨h1, h2, h3, h4⟩ := h.ownOk b u hb
      refine ⟨?_, fun e => ?_, Nat.lt_succ_of_lt h3, fun d hd y => ?_⟩
      · show (w.freed b || w.buf == some b) = false
        rw [h1, Bool.false_or]
        exact beq_eq_false_iff_ne.mpr h2
      · have := Option.some.inj e; omega
      · show acc μ _ _ ≤ _
        rw [hsame _ _ (.inl (hPpart b d hd (by omega) h2))]
        exact Nat.le_trans (h4 d hd y) ((hvu u).2 y)
    bufOk := by
      intro b hb
      obtain rfl := Option.some.inj hb
      refine ⟨?_, Nat.lt_succ_self _⟩
      show (w.freed w.cnt || w.buf == some w.cnt) = false
      rw [h.freshF _ (Nat.le_refl _), Bool.false_or]
      exact beq_eq_false_iff_ne.mpr hbc
    fresh := by
      intro b d (hb : w.cnt + 1 ≤ b) hd u
      show acc μ _ _ = 0
      rw [hsame _ _ (.inl (hPpart b d hd (by omega)
        fun e => absurd (h.bufOk _ e).2 (by omega)))]
      exact h.fresh b d (by omega) hd u
    freshF := by
      intro b (hb : w.cnt + 1 ≤ b)
      show (w.freed b || w.buf == some b) = false
      rw [h.freshF _ (by omega), Bool.false_or]
      exact beq_eq_false_iff_ne.mpr fun e => absurd (h.bufOk _ e).2 (by omega)
    mine := by
      intro k u
      show acc μ _ _ ≤ _
      by_cases e : u = t
      · subst e; show _ ≤ (μ.view u).clk u; rw [hvt']; exact hself k
      · rw [hsame k u (.inr e)]; exact Nat.le_trans (h.mine k u) ((hvu u).2 u) }

/-- The buffer is taken. -/
theorem Inv.take {w : St} {g : Ghost} (h : Inv w g) {t d : Nat} (hq : w.pc t = .take d) :
    Inv { w.goto t (.crit d) (w.mem.write t .buf) with
        buf := none
        own := fun h => if w.buf = some h then some t else w.own h } g := by
  have hpq := h.pcs t
  rw [hq] at hpq
  obtain ⟨hM, hd1, hon⟩ := hpq
  have hdead := Inv.dead (g := g) hM hon
  let μ := w.mem.write t .buf
  let v := (w.mem.view t).tick t
  let w' : St := { w.goto t (.crit d) μ with
        buf := none
        own := fun h => if w.buf = some h then some t else w.own h }
  show Inv w' g
  have hv : μ.view = setf w.mem.view t v := rfl
  have hle : VLe (w.mem.view t) v := vle_tick _ _
  have hvu : ∀ u, VLe (w.mem.view u) (μ.view u) := by rw [hv]; exact vle_setf hle
  have hvt' : μ.view t = v := by rw [hv, setf_self]
  have hvc : v.clk t = (w.mem.view t).clk t + 1 := by simp [v, View.tick]
  have hmv' : mv w' = v := by
    unfold mv; dsimp only [w', St.goto]; rw [hM.1]; exact hvt'
  have hmv : VLe (mv w) v := by rw [mv_some hM.1]; exact hle
  have hlv : ∀ u, VLe (lv w u) (lv w' u) := by
    intro u; unfold lv; dsimp only [w', St.goto]; split
    · exact hvu _
    · exact VLe.refl _
  have hsame : ∀ k u, (k ≠ .buf ∨ u ≠ t) → acc μ k u = acc w.mem k u := fun k u hk =>
    acc_congr rfl (write_wr _ _ _ _ _ hk)
  have hself : ∀ k, acc μ k t ≤ v.clk t := by
    intro k
    have h1 := h.mine k t
    have h2 : w.mem.rd k t ≤ acc w.mem k t := Nat.le_max_left _ _
    have h3 := wr_le_acc w.mem k t
    have h4 : μ.wr k t ≤ (w.mem.view t).clk t + 1 := by
      dsimp only [μ, Mem.write]
      split
      · rw [setf_self]; exact Nat.le_refl _
      · omega
    have h5 : μ.rd k t = w.mem.rd k t := rfl
    unfold acc
    rw [hvc, h5]; omega
  have hbuf : ∀ u, acc μ .buf u ≤ v.clk u := by
    intro u
    by_cases e : u = t
    · subst e; exact hself _
    · rw [hsame _ u (.inr e)]
      exact Nat.le_trans ((h.cur .buf (.inl rfl) u).2 (hdead u)) (hmv.2 u)
  have hne : ∀ b k, part b k = true → k ≠ .buf := by rintro b _ hk rfl; simp [part] at hk
  have hheld : ∀ u, held w' u = none := fun u => by
    rw [held_other (w := w) (w' := w') hq rfl rfl rfl]
    exact h.deadHeld hdead u
  exact {
    pcs := h.others hM.1 rfl ⟨hM, hd1, fun _ => hon⟩
      (fun u _ hL => absurd hL.2.1 (hdead u))
      (fun _ _ _ hx => ⟨hx, rfl⟩) (fun _ _ => rfl) (fun _ _ => rfl)
    mpc := Inv.mpcM (w := w) hM.1 rfl rfl
    lkpc := h.lkpcM (by rw [hq]; rfl) (by rw [hq]; rfl) rfl
    mfree := fun hc => by have := hM.1.symm.trans hc; cases this
    penReg := h.penReg
    enTop := h.enTop
    enMax := h.enMax
    enKnow := by rw [hmv']; exact Nat.le_trans h.enKnow (hmv.1 _)
    run := by
      intro u i m h1 h2 h3 h4 h5
      exact absurd (h.run u i m h1 h2 h3
          (Nat.le_trans ((hvu u).1 _) h4) (Nat.le_trans ((hlv u).1 _) h5)).1 (hdead u)
    act := by
      intro ha
      rcases ha with e | ⟨u, hu⟩
      · rw [hon] at e; cases e
      · rw [show w'.pend u = false from hM.2 u] at hu; cases hu
    tcs := by
      intro u c hc
      have : w.tc u = some c := hc
      rw [h.deadTc hdead u] at this; cases this
    heldOk := by intro u c hc; rw [hheld] at hc; cases hc
    heldInj := by intro a b c hc; rw [hheld] at hc; cases hc
    bagOk := by intro b hb; cases hb
    bagNodup := by intro b hb; cases hb
    cur := by
      intro d' hd' u
      rw [hmv']
      have : acc w'.mem d' u ≤ v.clk u := by
        rcases hd' with rfl | ⟨b, hb, _⟩
        · exact hbuf u
        · cases hb
      exact ⟨by omega, fun _ => this⟩
    wrM := by
      intro u
      rw [hmv']
      exact ⟨Nat.le_trans (wr_le_acc _ _ _) (hbuf u), fun b hb => by cases hb⟩
    tcl := by
      intro y u
      rw [hmv']
      show (_ → acc μ _ _ ≤ _ ∧ acc μ _ _ ≤ _) ∧ acc μ _ _ ≤ _
      rw [hsame (.tc y) u (.inl (by simp)), hsame (.tc y) y (.inl (by simp))]
      obtain ⟨h1, h2⟩ := h.tcl y u
      exact ⟨fun hne => ⟨Nat.le_trans (h1 hne).1 ((hlv y).2 u), Nat.le_trans (h1 hne).2 (hmv.2 u)⟩,
        by have := (hlv y).2 y; have := hmv.2 y; omega⟩
    cfg := by
      intro u
      rw [hmv']
      show acc μ _ _ ≤ _
      rw [hsame .cfg u (.inl (by simp))]; exact Nat.le_trans (h.cfg u) (hmv.2 u)
    ownOk := by
      intro b u hb
      have hb' : (if w.buf = some b then some t else w.own b) = some u := hb
      by_cases e : w.buf = some b
      · rw [if_pos e] at hb'
        obtain rfl := Option.some.inj hb'
        refine ⟨(h.bufOk b e).1, fun e => (by cases e), (h.bufOk b e).2, fun d hd y => ?_⟩
        show acc μ d y ≤ (μ.view t).clk y
        rw [hvt', hsame d y (.inl (hne b d hd))]
        exact Nat.le_trans ((h.cur d (.inr ⟨b, e, hd⟩) y).2 (hdead y)) (hmv.2 y)
      · rw [if_neg e] at hb'
        obtain ⟨h1, h2, h3, h4⟩ := h.ownOk b u hb'
        refine ⟨h1, fun e => (by cases e), h3, fun d hd y => ?_⟩
        show acc μ _ _ ≤ _
        rw [hsame d y (.inl (hne b d hd))]
        exact Nat.le_trans (h4 d hd y) ((hvu u).2 y)
    bufOk := by intro b hb; cases hb
    fresh := by
      intro b d hb hd u
      show acc μ _ _ = 0
      rw [hsame d u (.inl (hne b d hd))]
      exact h.fresh b d hb hd u
    freshF := h.freshF
    mine := by
      intro k u
      show acc μ _ _ ≤ _
      by_cases e : u = t
      · subst e; show _ ≤ (μ.view u).clk u; rw [hvt']; exact hself k
      · rw [hsame k u (.inr e)]; exact Nat.le_trans (h.mine k u) ((hvu u).2 u) }

end Phosphor.TLog.W
