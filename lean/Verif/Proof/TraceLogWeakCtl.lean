import Verif.Proof.TraceLogWeak
namespace Phosphor.TLog.W
open Phosphor.Weak

def heldP (p : Pc) (o : Option Chunk) : Option Chunk :=
  match p with
  | .clear => none
  | .dClear _ => none
  | .reset c => some c
  | .setChunk c => some c
  | _ => o

theorem held_eq (w : St) (t : Nat) : held w t = heldP (w.pc t) (w.tc t) := by
  unfold held heldP
  generalize w.pc t = p
  cases p <;> rfl

def isEv : Pc → Bool
  | .evClear _ _ _ | .evUnlock _ _ _ => true
  | _ => false

theorem not_ev {p : Pc} (h : isEv p = false) (k : Bool) (d u : Nat) :
    p ≠ .evClear k d u ∧ p ≠ .evUnlock k d u :=
  ⟨fun e => (by rw [e] at h; cases h), fun e => (by rw [e] at h; cases h)⟩

/-- Memory accesses, then thread `t` goes on. -/
theorem Inv.move {w : St} {g : Ghost} {t : Nat} {p q : Pc} {μ : Mem Loc Nat Plain}
    (h : Inv { w with mem := μ } g) (hq : w.pc t = q) (hp : PcOk { w with mem := μ } g t p)
    (hs : slave p = slave q) (hm : inM p = inM q) (hev : isEv q = false)
    (hh : heldP p (w.tc t) = heldP q (w.tc t) ∨ heldP p (w.tc t) = none) :
    Inv (w.goto t p μ) g := by
  have := h.goto (t := t) (p := p) hp (by rw [hs]; exact congrArg slave hq.symm)
    (by rw [hm]; exact congrArg inM hq.symm)
    (fun k d u => not_ev (p := w.pc t) (by rw [hq]; exact hev) k d u) ?_
  · exact this
  · have e : (setf w.pc t p) t = p := setf_self _ _ _
    rw [held_eq, held_eq]
    show heldP (setf w.pc t p t) (w.tc t) = heldP (w.pc t) (w.tc t) ∨
      heldP (setf w.pc t p t) (w.tc t) = none
    rw [e, hq]; exact hh

/-- A registered thread that holds its chunk lock and reads that tracing is on. -/
theorem Inv.seeOn {w : St} {g : Ghost} (h : Inv w g) {t ts : Nat} {m : Msg Loc Nat}
    (hl : w.lk t = some t) (hr : w.reg t = true) (hm : w.mem.readable t .en ts m)
    (hv : m.val ≠ 0) : live w g t ∧ ∀ u, g.rv u ≤ m.view.clk u :=
  h.run t ts m hr hm.1 hv hm.2 (by rw [lv_some hl]; exact hm.2)

/-- The mutex holder reads the newest value of `enabled`. -/
theorem Inv.seeTop {w : St} {g : Ghost} (h : Inv w g) {t ts : Nat} {m : Msg Loc Nat}
    (ht : w.mutex = some t) (hm : w.mem.readable t .en ts m) :
    ts = g.top ∧ m.val = if g.on then 1 else 0 := by
  have h1 := h.enMax ts m hm.1
  have h2 := h.enKnow
  rw [mv_some ht] at h2
  have h3 : ts = g.top := by have := hm.2; omega
  obtain ⟨v, hv, _⟩ := h.enTop
  have h4 := hm.1
  rw [h3, hv] at h4
  exact ⟨h3, by rw [← Option.some.inj h4]⟩

theorem loadAcq_clk (μ : Mem Loc Nat Plain) (t : Nat) (l : Loc) (ts : Nat) (m : Msg Loc Nat)
    (u : Nat) : m.view.clk u ≤ ((μ.loadAcq t l ts m).view t).clk u := by
  show _ ≤ (setf μ.view t (((μ.view t).see l ts).join m.view) t).clk u
  rw [setf_self]
  exact (vle_right _ _).2 u

/-- Thread `t` takes the chunk lock of `x`. -/
theorem Inv.lock {w : St} {g : Ghost} (h : Inv w g) {t x : Nat} {p q : Pc} (hq : w.pc t = q)
    (hx : w.lk x = none) (hp : PcOk { w.goto t p w.mem with lk := setf w.lk x (some t) } g t p)
    (hsl : (x = t ∧ slave p = true) ∨ ∃ k d, p = .evClear k d x) (hqs : slave q = false)
    (hm : inM p = inM q) (hev : isEv q = false) (hl : VLe (w.lview x) (w.mem.view t))
    (hh : heldP p (w.tc t) = heldP q (w.tc t)) :
    Inv { w.goto t p w.mem with lk := setf w.lk x (some t) } g := by
  have hpc : ∀ u, u ≠ t → setf w.pc t p u = w.pc u := fun u hu => setf_ne _ _ hu
  have hpt : setf w.pc t p t = p := setf_self _ _ _
  refine h.ctl rfl rfl rfl rfl rfl rfl rfl rfl (VLe.refl _) ?_ ?_ ?_ ?_ h.mfree
    (fun _ _ hc => .inl hc) ?_
  · intro u
    unfold lv; dsimp only [St.goto]
    by_cases e : u = x
    · subst e; rw [setf_self, hx]; exact hl
    · rw [setf_ne _ _ e]; exact VLe.refl _
  · intro u
    show PcOk _ g u (setf w.pc t p u)
    by_cases e : u = t
    · subst e; rw [hpt]; exact hp
    · rw [hpc u e]
      have hk : ∀ y, w.lk y = some u → setf w.lk x (some t) y = some u := by
        intro y hy
        rw [setf_ne _ _ (by rintro rfl; rw [hx] at hy; cases hy)]; exact hy
      exact (h.pcs u).frame (fun hm => ⟨hm, rfl, rfl, rfl⟩)
        (fun hL => ⟨⟨hk _ hL.1, hL.2⟩, rfl⟩) (fun y hy => ⟨hk y hy, rfl⟩) rfl rfl
  · intro u hu
    show inM (setf w.pc t p u) = true
    by_cases e : u = t
    · subst e; rw [hpt, hm, ← hq]; exact h.mpc _ hu
    · rw [hpc u e]; exact h.mpc u hu
  · intro u s hu
    show (s = u ∧ slave (setf w.pc t p u) = true) ∨
      ∃ k d, setf w.pc t p s = .evClear k d u ∨ setf w.pc t p s = .evUnlock k d u
    dsimp only [St.goto] at hu
    by_cases e : u = x
    · subst e
      rw [setf_self] at hu
      obtain rfl := Option.some.inj hu
      rcases hsl with ⟨e1, e2⟩ | ⟨k, d, e1⟩
      · subst e1; exact .inl ⟨rfl, by rw [hpt]; exact e2⟩
      · exact .inr ⟨k, d, .inl (by rw [hpt]; exact e1)⟩
    · rw [setf_ne _ _ e] at hu
      rcases h.lkpc u s hu with ⟨h1, h2⟩ | ⟨k, d, h1⟩
      · have e' : u ≠ t := by rintro rfl; rw [hq, hqs] at h2; cases h2
        exact .inl ⟨h1, by rw [hpc u e']; exact h2⟩
      · have e' : s ≠ t := by
          rintro rfl
          have := not_ev (p := w.pc s) (by rw [hq]; exact hev) k d u
          rcases h1 with h1 | h1
          · exact this.1 h1
          · exact this.2 h1
        exact .inr ⟨k, d, by rw [hpc s e']; exact h1⟩
  · intro u
    left
    rw [held_eq, held_eq]
    show heldP (setf w.pc t p u) (w.tc u) = heldP (w.pc u) (w.tc u)
    by_cases e : u = t
    · subst e; rw [hpt, hq]; exact hh
    · rw [hpc u e]

/-- Thread `t` releases its chunk lock. -/
theorem Inv.unlk {w : St} {g : Ghost} (h : Inv w g) {t : Nat} (hq : w.pc t = .unlock) :
    Inv { w.goto t .idle w.mem with
        lk := setf w.lk t none
        lview := setf w.lview t (w.mem.view t) } g := by
  have hpc : ∀ u, u ≠ t → setf w.pc t .idle u = w.pc u := fun u hu => setf_ne _ _ hu
  have hpt : setf w.pc t .idle t = .idle := setf_self _ _ _
  have hlk : w.lk t = some t := by have := h.pcs t; rw [hq] at this; exact this
  refine h.ctl rfl rfl rfl rfl rfl rfl rfl rfl (VLe.refl _) ?_ ?_ ?_ ?_ h.mfree
    (fun _ _ hc => .inl hc) ?_
  · intro u
    unfold lv; dsimp only [St.goto]
    by_cases e : u = t
    · subst e; rw [setf_self, hlk, setf_self]; exact VLe.refl _
    · rw [setf_ne _ _ e, setf_ne _ _ e]; exact VLe.refl _
  · intro u
    show PcOk _ g u (setf w.pc t .idle u)
    by_cases e : u = t
    · subst e; rw [hpt]; trivial
    · rw [hpc u e]
      have hk : ∀ y, w.lk y = some u → setf w.lk t none y = some u := by
        intro y hy
        rw [setf_ne _ _ (by rintro rfl; rw [hlk] at hy; exact e (Option.some.inj hy).symm)]
        exact hy
      exact (h.pcs u).frame (fun hm => ⟨hm, rfl, rfl, rfl⟩)
        (fun hL => ⟨⟨hk _ hL.1, hL.2⟩, rfl⟩) (fun y hy => ⟨hk y hy, rfl⟩) rfl rfl
  · intro u hu
    show inM (setf w.pc t .idle u) = true
    by_cases e : u = t
    · subst e; have := h.mpc _ hu; rw [hq] at this; cases this
    · rw [hpc u e]; exact h.mpc u hu
  · intro u s hu
    show (s = u ∧ slave (setf w.pc t .idle u) = true) ∨
      ∃ k d, setf w.pc t .idle s = .evClear k d u ∨ setf w.pc t .idle s = .evUnlock k d u
    dsimp only [St.goto] at hu
    have e : u ≠ t := by rintro rfl; rw [setf_self] at hu; cases hu
    rw [setf_ne _ _ e] at hu
    rcases h.lkpc u s hu with ⟨h1, h2⟩ | ⟨k, d, h1⟩
    · exact .inl ⟨h1, by rw [hpc u e]; exact h2⟩
    · have e' : s ≠ t := by
        rintro rfl
        rw [hq] at h1
        rcases h1 with h1 | h1 <;> cases h1
      exact .inr ⟨k, d, by rw [hpc s e']; exact h1⟩
  · intro u
    left
    rw [held_eq, held_eq]
    show heldP (setf w.pc t .idle u) (w.tc u) = heldP (w.pc u) (w.tc u)
    by_cases e : u = t
    · subst e; rw [hpt, hq]; rfl
    · rw [hpc u e]

/-- Thread `t` takes the mutex. -/
theorem Inv.lockM {w : St} {g : Ghost} (h : Inv w g) {t : Nat} (hq : w.pc t = .idle)
    (hm : w.mutex = none) (hl : VLe w.mview (w.mem.view t)) :
    Inv { w.goto t (.crit 0) w.mem with mutex := some t } g := by
  have hpc : ∀ u, u ≠ t → setf w.pc t (.crit 0) u = w.pc u := fun u hu => setf_ne _ _ hu
  have hpt : setf w.pc t (.crit 0) t = .crit 0 := setf_self _ _ _
  refine h.ctl rfl rfl rfl rfl rfl rfl rfl rfl ?_ (fun _ => VLe.refl _) ?_ ?_ ?_ ?_
    (fun _ _ hc => .inl hc) ?_
  · unfold mv; dsimp only [St.goto]; rw [hm]; exact hl
  · intro u
    show PcOk _ g u (setf w.pc t _ u)
    by_cases e : u = t
    · subst e; rw [hpt]; exact ⟨⟨rfl, h.mfree hm⟩, Nat.zero_le 1, fun e => absurd e (Nat.lt_irrefl 0)⟩
    · rw [hpc u e]
      exact (h.pcs u).frame (fun hm' => by rw [hm] at hm'; cases hm')
        (fun hL => ⟨hL, rfl⟩) (fun y hy => ⟨hy, rfl⟩) rfl rfl
  · intro u hu
    obtain rfl := Option.some.inj hu
    show inM (setf w.pc t _ t) = true
    rw [hpt]; rfl
  · intro u s hu
    show (s = u ∧ slave (setf w.pc t _ u) = true) ∨
      ∃ k d, setf w.pc t _ s = .evClear k d u ∨ setf w.pc t _ s = .evUnlock k d u
    rcases h.lkpc u s hu with ⟨h1, h2⟩ | ⟨k, d, h1⟩
    · have e : u ≠ t := by rintro rfl; rw [hq] at h2; cases h2
      exact .inl ⟨h1, by rw [hpc u e]; exact h2⟩
    · have e' : s ≠ t := by
        rintro rfl
        rw [hq] at h1
        rcases h1 with h1 | h1 <;> cases h1
      exact .inr ⟨k, d, by rw [hpc s e']; exact h1⟩
  · intro hc; cases hc
  · intro u
    left
    rw [held_eq, held_eq]
    show heldP (setf w.pc t _ u) (w.tc u) = heldP (w.pc u) (w.tc u)
    by_cases e : u = t
    · subst e; rw [hpt, hq]; rfl
    · rw [hpc u e]

/-- Thread `t` releases the mutex. -/
theorem Inv.unlockM {w : St} {g : Ghost} (h : Inv w g) {t : Nat} (hq : w.pc t = .crit 0) :
    Inv { w.goto t .idle w.mem with mutex := none, mview := w.mem.view t } g := by
  have hpc : ∀ u, u ≠ t → setf w.pc t .idle u = w.pc u := fun u hu => setf_ne _ _ hu
  have hpt : setf w.pc t .idle t = .idle := setf_self _ _ _
  have hM : M w t := by have := h.pcs t; rw [hq] at this; exact this.1
  refine h.ctl rfl rfl rfl rfl rfl rfl rfl rfl ?_ (fun _ => VLe.refl _) ?_ ?_ ?_ ?_
    (fun _ _ hc => .inl hc) ?_
  · unfold mv; dsimp only [St.goto]; rw [hM.1]; exact VLe.refl _
  · intro u
    show PcOk _ g u (setf w.pc t _ u)
    by_cases e : u = t
    · subst e; rw [hpt]; trivial
    · rw [hpc u e]
      exact (h.pcs u).frame
        (fun hm' => by rw [hM.1] at hm'; exact absurd (Option.some.inj hm').symm e)
        (fun hL => ⟨hL, rfl⟩) (fun y hy => ⟨hy, rfl⟩) rfl rfl
  · intro u hu; cases hu
  · intro u s hu
    show (s = u ∧ slave (setf w.pc t _ u) = true) ∨
      ∃ k d, setf w.pc t _ s = .evClear k d u ∨ setf w.pc t _ s = .evUnlock k d u
    rcases h.lkpc u s hu with ⟨h1, h2⟩ | ⟨k, d, h1⟩
    · have e : u ≠ t := by rintro rfl; rw [hq] at h2; cases h2
      exact .inl ⟨h1, by rw [hpc u e]; exact h2⟩
    · have e' : s ≠ t := by
        rintro rfl
        rw [hq] at h1
        rcases h1 with h1 | h1 <;> cases h1
      exact .inr ⟨k, d, by rw [hpc s e']; exact h1⟩
  · intro _; exact hM.2
  · intro u
    left
    rw [held_eq, held_eq]
    show heldP (setf w.pc t _ u) (w.tc u) = heldP (w.pc u) (w.tc u)
    by_cases e : u = t
    · subst e; rw [hpt, hq]; rfl
    · rw [hpc u e]

/-- Thread `t` sets the chunk pointer of `x`, which nobody else uses. -/
theorem Inv.setTc {w : St} {g : Ghost} (h : Inv w g) {t x : Nat} {o : Option Chunk} {p q : Pc}
    (hq : w.pc t = q) (hp : PcOk { w.goto t p w.mem with tc := setf w.tc x o } g t p)
    (hs : slave p = slave q) (hm : inM p = inM q)
    (hev : isEv q = false ∨ ∃ k d, q = .evClear k d x ∧ p = .evUnlock k d x)
    (hx : x = t ∨ w.lk x = some t)
    (ho : ∀ c, o = some c → x = t ∧ live w g t ∧ ∀ u, g.rv u ≤ (w.mem.view t).clk u)
    (hh : x = t → heldP p o = heldP q (w.tc t) ∨ heldP p o = none)
    (hh' : x ≠ t → o = none ∧ heldP p (w.tc t) = heldP q (w.tc t) ∧
      (w.pc x = .idle ∨ w.pc x = .tryLock)) (hxm : ∀ u, u ≠ t → w.lk x = some u → w.lk t ≠ some u) :
    Inv { w.goto t p w.mem with tc := setf w.tc x o } g := by
  have hpc : ∀ u, u ≠ t → setf w.pc t p u = w.pc u := fun u hu => setf_ne _ _ hu
  have hpt : setf w.pc t p t = p := setf_self _ _ _
  refine h.ctl rfl rfl rfl rfl rfl rfl rfl rfl (VLe.refl _) (fun _ => VLe.refl _) ?_ ?_ ?_ h.mfree
    ?_ ?_
  · intro u
    show PcOk _ g u (setf w.pc t p u)
    by_cases e : u = t
    · subst e; rw [hpt]; exact hp
    · rw [hpc u e]
      by_cases e' : u = x
      · subst e'
        rcases (hh' e).2.2 with e1 | e1 <;> rw [e1] <;> trivial
      · refine (h.pcs u).frame (fun hm => ⟨hm, rfl, rfl, rfl⟩)
          (fun hL => ⟨hL, rfl⟩) (fun y hy => ⟨hy, ?_⟩) rfl (setf_ne _ _ e')
        refine setf_ne _ _ ?_
        rintro rfl
        rcases hx with rfl | hx
        · exact hxm u e hy hy
        · rw [hx] at hy; exact e (Option.some.inj hy).symm
  · intro u hu
    show inM (setf w.pc t p u) = true
    by_cases e : u = t
    · subst e; rw [hpt, hm, ← hq]; exact h.mpc _ hu
    · rw [hpc u e]; exact h.mpc u hu
  · intro u s hu
    show (s = u ∧ slave (setf w.pc t _ u) = true) ∨
      ∃ k d, setf w.pc t _ s = .evClear k d u ∨ setf w.pc t _ s = .evUnlock k d u
    rcases h.lkpc u s hu with ⟨h1, h2⟩ | ⟨k, d, h1⟩
    · refine .inl ⟨h1, ?_⟩
      by_cases e : u = t
      · subst e; rw [hpt, hs, ← hq]; exact h2
      · rw [hpc u e]; exact h2
    · by_cases e' : s = t
      · subst e'
        rcases hev with hev | ⟨k', d', e1, e2⟩
        · have := not_ev (p := w.pc s) (by rw [hq]; exact hev) k d u
          rcases h1 with h1 | h1
          · exact absurd h1 this.1
          · exact absurd h1 this.2
        · rw [hq, e1] at h1
          rcases h1 with h1 | h1
          · cases h1; exact .inr ⟨k, d, .inr (by rw [hpt]; exact e2)⟩
          · cases h1
      · exact .inr ⟨k, d, by rw [hpc s e']; exact h1⟩
  · intro u c hc
    dsimp only [St.goto] at hc
    by_cases e : u = x
    · subst e
      rw [setf_self] at hc
      obtain ⟨rfl, h2⟩ := ho c hc
      exact .inr h2
    · rw [setf_ne _ _ e] at hc; exact .inl hc
  · intro u
    rw [held_eq, held_eq]
    show heldP (setf w.pc t p u) (setf w.tc x o u) = heldP (w.pc u) (w.tc u) ∨
      heldP (setf w.pc t p u) (setf w.tc x o u) = none
    by_cases e : u = t
    · subst e
      rw [hpt, hq]
      by_cases e' : u = x
      · subst e'; rw [setf_self]; exact hh rfl
      · rw [setf_ne _ _ e']; exact .inl (hh' (Ne.symm e')).2.1
    · rw [hpc u e]
      by_cases e' : u = x
      · subst e'
        rw [setf_self, (hh' e).1]
        right
        rcases (hh' e).2.2 with e1 | e1 <;> rw [e1] <;> rfl
      · rw [setf_ne _ _ e']; exact .inl rfl

/-- Thread `t` puts its chunk into the return queue. -/
theorem Inv.giveBack {w : St} {g : Ghost} (h : Inv w g) {t b : Nat} {c : Chunk} {p q : Pc}
    (hq : w.pc t = q) (hp : PcOk { w.goto t p w.mem with bufs := w.giveBack t b c } g t p)
    (hs : slave p = slave q) (hm : inM p = inM q) (hev : isEv q = false) (hb : w.buf = some b)
    (hc : held w t = some c) (hh : heldP p (w.tc t) = none) :
    Inv { w.goto t p w.mem with bufs := w.giveBack t b c } g := by
  have hpc : ∀ u, u ≠ t → setf w.pc t p u = w.pc u := fun u hu => setf_ne _ _ hu
  have hpt : setf w.pc t p t = p := setf_self _ _ _
  have hnext : ∀ b', (w.giveBack t b c b').next = (w.bufs b').next := by
    intro b'
    unfold St.giveBack
    by_cases e : b' = b
    · subst e; rw [setf_self]
    · rw [setf_ne _ _ e]
  have hheld : ∀ u, held { w.goto t p w.mem with bufs := w.giveBack t b c } u =
      if u = t then none else held w u := by
    intro u
    rw [held_eq]
    show heldP (setf w.pc t p u) (w.tc u) = _
    by_cases e : u = t
    · subst e; rw [hpt, hh, if_pos rfl]
    · rw [hpc u e, if_neg e, held_eq]
  have hsub : ∀ u c', held { w.goto t p w.mem with bufs := w.giveBack t b c } u = some c' →
      u ≠ t ∧ held w u = some c' := by
    intro u c' hu
    rw [hheld] at hu
    by_cases e : u = t
    · rw [if_pos e] at hu; cases hu
    · rw [if_neg e] at hu; exact ⟨e, hu⟩
  have hck := h.heldOk t c hc
  have hcb : c.1 = b := by rw [hb] at hck; exact (Option.some.inj hck.1).symm
  refine h.ctl0 rfl rfl rfl rfl rfl rfl rfl (VLe.refl _) (fun _ => VLe.refl _) ?_ ?_ ?_ h.mfree
    (fun _ _ hc => .inl hc) (fun b' => Nat.le_of_eq (hnext b').symm) ?_ ?_ ?_ ?_
  · intro u
    show PcOk _ g u (setf w.pc t p u)
    by_cases e : u = t
    · subst e; rw [hpt]; exact hp
    · rw [hpc u e]
      exact (h.pcs u).mono rfl rfl rfl rfl rfl rfl (fun _ => Nat.le_refl _)
  · intro u hu
    show inM (setf w.pc t p u) = true
    by_cases e : u = t
    · subst e; rw [hpt, hm, ← hq]; exact h.mpc _ hu
    · rw [hpc u e]; exact h.mpc u hu
  · intro u s hu
    show (s = u ∧ slave (setf w.pc t _ u) = true) ∨
      ∃ k d, setf w.pc t _ s = .evClear k d u ∨ setf w.pc t _ s = .evUnlock k d u
    rcases h.lkpc u s hu with ⟨h1, h2⟩ | ⟨k, d, h1⟩
    · refine .inl ⟨h1, ?_⟩
      by_cases e : u = t
      · subst e; rw [hpt, hs, ← hq]; exact h2
      · rw [hpc u e]; exact h2
    · have e' : s ≠ t := by
        rintro rfl
        have := not_ev (p := w.pc s) (by rw [hq]; exact hev) k d u
        rcases h1 with h1 | h1
        · exact this.1 h1
        · exact this.2 h1
      exact .inr ⟨k, d, by rw [hpc s e']; exact h1⟩
  · intro u c' hu
    obtain ⟨h1, h2, h3⟩ := h.heldOk u c' (hsub u c' hu).2
    refine ⟨h1, ?_, h3⟩
    show c'.2 < (w.giveBack t b c c'.1).next
    rw [hnext]; exact h2
  · intro u u' c' h1 h2
    exact h.heldInj u u' c' (hsub u c' h1).2 (hsub u' c' h2).2
  · intro b' hb' c' v hcv
    rw [hb] at hb'
    obtain rfl := Option.some.inj hb'
    have hcv' : (c', v) = (c, w.mem.view t) ∨ (c', v) ∈ (w.bufs b).bag := by
      dsimp only [St.giveBack] at hcv
      rw [setf_self] at hcv
      dsimp only at hcv
      split at hcv
      · exact List.mem_cons.mp hcv
      · exact .inr hcv
    show c'.1 = b ∧ c'.2 < (w.giveBack t b c b).next ∧ _ ∧ _
    rw [hnext]
    rcases hcv' with e | hcv'
    · cases e
      refine ⟨hcb, hcb ▸ hck.2.1, fun u hu => ?_, hck.2.2⟩
      have := hsub u c hu
      exact this.1 (h.heldInj u t c this.2 hc)
    · obtain ⟨h1, h2, h3, h4⟩ := h.bagOk b hb c' v hcv'
      exact ⟨h1, h2, fun u hu => h3 u (hsub u c' hu).2, h4⟩
  · intro b' hb'
    rw [hb] at hb'
    obtain rfl := Option.some.inj hb'
    have := h.bagNodup b hb
    dsimp only [St.giveBack]
    rw [setf_self]
    dsimp only
    split
    · rw [List.map_cons, List.nodup_cons]
      refine ⟨fun hmem => ?_, this⟩
      obtain ⟨⟨c', v⟩, h1, h2⟩ := List.mem_map.mp hmem
      dsimp only at h2
      subst h2
      exact (h.bagOk b hb c' v h1).2.2.1 t hc
    · exact this

/-- Thread `t` gets chunk `c`, new or from the queue. -/
theorem Inv.obtain {w : St} {g : Ghost} (h : Inv w g) {t b : Nat} {c : Chunk} {B : Buf}
    (hq : w.pc t = .getChunk b) (hb : w.buf = some b) (hc : c.1 = b)
    (hfree : ∀ u, held w u ≠ some c) (hlt : c.2 < B.next) (hn : (w.bufs b).next ≤ B.next)
    (hsub : ∀ x ∈ B.bag, x ∈ (w.bufs b).bag ∧ x.1 ≠ c) (hnd : (B.bag.map Prod.fst).Nodup)
    (hacc : ∀ u, acc w.mem (.cell c.1 c.2) u ≤ (w.mem.view t).clk u) :
    Inv { w.goto t (.reset c) w.mem with bufs := setf w.bufs b B } g := by
  have hpc : ∀ u, u ≠ t → setf w.pc t (.reset c) u = w.pc u := fun u hu => setf_ne _ _ hu
  have hpt : setf w.pc t (.reset c) t = .reset c := setf_self _ _ _
  have hnext : ∀ b', (w.bufs b').next ≤ (setf w.bufs b B b').next := by
    intro b'
    by_cases e : b' = b
    · subst e; rw [setf_self]; exact hn
    · rw [setf_ne _ _ e]; exact Nat.le_refl _
  have hpt' := h.pcs t
  rw [hq] at hpt'
  have hheld : ∀ u, held { w.goto t (.reset c) w.mem with bufs := setf w.bufs b B } u =
      if u = t then some c else held w u := by
    intro u
    rw [held_eq]
    show heldP (setf w.pc t _ u) (w.tc u) = _
    by_cases e : u = t
    · subst e; rw [hpt, if_pos rfl]; rfl
    · rw [hpc u e, if_neg e, held_eq]
  refine h.ctl0 rfl rfl rfl rfl rfl rfl rfl (VLe.refl _) (fun _ => VLe.refl _) ?_ ?_ ?_ h.mfree
    (fun _ _ hc => .inl hc) hnext ?_ ?_ ?_ ?_
  · intro u
    show PcOk _ g u (setf w.pc t _ u)
    by_cases e : u = t
    · subst e; rw [hpt]; exact ⟨hpt'.1, hpt'.2.1⟩
    · rw [hpc u e]
      exact (h.pcs u).mono rfl rfl rfl rfl rfl rfl (fun _ => Nat.le_refl _)
  · intro u hu
    show inM (setf w.pc t _ u) = true
    by_cases e : u = t
    · subst e; have := h.mpc _ hu; rw [hq] at this; cases this
    · rw [hpc u e]; exact h.mpc u hu
  · intro u s hu
    show (s = u ∧ slave (setf w.pc t _ u) = true) ∨
      ∃ k d, setf w.pc t _ s = .evClear k d u ∨ setf w.pc t _ s = .evUnlock k d u
    rcases h.lkpc u s hu with ⟨h1, h2⟩ | ⟨k, d, h1⟩
    · refine .inl ⟨h1, ?_⟩
      by_cases e : u = t
      · subst e; rw [hpt]; rfl
      · rw [hpc u e]; exact h2
    · have e' : s ≠ t := by
        rintro rfl
        rw [hq] at h1
        rcases h1 with h1 | h1 <;> cases h1
      exact .inr ⟨k, d, by rw [hpc s e']; exact h1⟩
  · intro u c' hu
    rw [hheld] at hu
    by_cases e : u = t
    · rw [if_pos e] at hu
      obtain rfl := Option.some.inj hu
      subst e
      refine ⟨by rw [hc]; exact hb, ?_, hacc⟩
      show c.2 < (setf w.bufs b B c.1).next
      rw [hc, setf_self]; exact hlt
    · rw [if_neg e] at hu
      obtain ⟨h1, h2, h3⟩ := h.heldOk u c' hu
      exact ⟨h1, Nat.lt_of_lt_of_le h2 (hnext _), h3⟩
  · intro u u' c' h1 h2
    rw [hheld] at h1 h2
    by_cases e : u = t <;> by_cases e' : u' = t
    · rw [e, e']
    · rw [if_pos e] at h1; rw [if_neg e'] at h2
      rw [← h1] at h2; exact absurd h2 (hfree u')
    · rw [if_neg e] at h1; rw [if_pos e'] at h2
      rw [← h2] at h1; exact absurd h1 (hfree u)
    · rw [if_neg e] at h1; rw [if_neg e'] at h2
      exact h.heldInj u u' c' h1 h2
  · intro b' hb' c' v hcv
    rw [hb] at hb'
    obtain rfl := Option.some.inj hb'
    dsimp only at hcv
    rw [setf_self] at hcv
    obtain ⟨h5, h6⟩ := hsub _ hcv
    obtain ⟨h1, h2, h3, h4⟩ := h.bagOk b hb c' v h5
    refine ⟨h1, Nat.lt_of_lt_of_le h2 (hnext b), fun u hu => ?_, h4⟩
    rw [hheld] at hu
    by_cases e : u = t
    · rw [if_pos e] at hu; exact h6 (Option.some.inj hu).symm
    · rw [if_neg e] at hu; exact h3 u hu
  · intro b' hb'
    rw [hb] at hb'
    obtain rfl := Option.some.inj hb'
    dsimp only
    rw [setf_self]; exact hnd

end Phosphor.TLog.W
