import Verif.Model.TraceLogWeak
namespace Phosphor.TLog.W
open Phosphor.Weak

/-- More is known in `b`. -/
def VLe (a b : View Loc) : Prop := (∀ l, a.ts l ≤ b.ts l) ∧ ∀ u, a.clk u ≤ b.clk u

theorem VLe.refl (a : View Loc) : VLe a a := ⟨fun _ => Nat.le_refl _, fun _ => Nat.le_refl _⟩

theorem VLe.trans {a b c : View Loc} (h : VLe a b) (k : VLe b c) : VLe a c :=
  ⟨fun l => Nat.le_trans (h.1 l) (k.1 l), fun u => Nat.le_trans (h.2 u) (k.2 u)⟩

theorem vle_see (v : View Loc) (l : Loc) (ts : Nat) : VLe v (v.see l ts) := by
  refine ⟨fun k => ?_, fun _ => Nat.le_refl _⟩
  by_cases e : k = l
  · subst e; simp only [View.see, if_true]; omega
  · simp [View.see, e]

theorem vle_left (a b : View Loc) : VLe a (a.join b) :=
  ⟨fun _ => Nat.le_max_left _ _, fun _ => Nat.le_max_left _ _⟩

theorem vle_right (a b : View Loc) : VLe b (a.join b) :=
  ⟨fun _ => Nat.le_max_right _ _, fun _ => Nat.le_max_right _ _⟩

theorem vle_tick (v : View Loc) (t : Nat) : VLe v (v.tick t) := by
  refine ⟨fun _ => Nat.le_refl _, fun u => ?_⟩
  by_cases e : u = t
  · subst e; simp [View.tick]
  · simp [View.tick, setf_ne _ _ e]

theorem vle_setf {μ : Nat → View Loc} {t : Nat} {v : View Loc} (h : VLe (μ t) v) (u : Nat) :
    VLe (μ u) (setf μ t v u) := by
  by_cases e : u = t
  · subst e; rw [setf_self]; exact h
  · rw [setf_ne _ _ e]; exact VLe.refl _

/-- Last access of `u` to `d`. -/
def acc (μ : Mem Loc Nat Plain) (d : Plain) (u : Nat) : Nat := max (μ.rd d u) (μ.wr d u)

/-- What the mutex holder knows, or would know. -/
def mv (w : St) : View Loc :=
  match w.mutex with
  | some s => w.mem.view s
  | none => w.mview

/-- What the holder of the chunk lock of `u` knows, or would know. -/
def lv (w : St) (u : Nat) : View Loc :=
  match w.lk u with
  | some s => w.mem.view s
  | none => w.lview u

/-- The newest timestamp and value of `enabled`; what its last store of `true` passed on. -/
structure Ghost where
  top : Nat
  on : Bool
  rv : Clock

/-- Registered and not yet evicted in this run. -/
def live (w : St) (g : Ghost) (t : Nat) : Prop :=
  w.reg t = true ∧ (g.on = true ∨ w.pend t = true)

/-- The chunk thread `t` owns. -/
def held (w : St) (t : Nat) : Option Chunk :=
  match w.pc t with
  | .clear => none
  | .dClear _ => none
  | .reset c => some c
  | .setChunk c => some c
  | _ => w.tc t

def slave : Pc → Bool
  | .locked | .check | .replace | .giveBack _ | .clear | .again | .readBuf | .getChunk _
  | .reset _ | .setChunk _ | .write | .unlock => true
  | _ => false

def inM : Pc → Bool
  | .crit _ | .exchange _ _ | .evict _ _ | .evClear _ _ _ | .evUnlock _ _ _ | .start _ | .newBuf _
  | .turnOn _ | .getBuf _ | .take _ | .dTest _ | .dReturn _ _ | .dClear _ | .dErase _ => true
  | _ => false

/-- A logger that uses the buffer. -/
def L (w : St) (g : Ghost) (t : Nat) : Prop :=
  w.lk t = some t ∧ live w g t ∧ ∀ u, g.rv u ≤ (w.mem.view t).clk u

/-- The mutex holder outside `evictThreads`. -/
def M (w : St) (t : Nat) : Prop := w.mutex = some t ∧ ∀ u, w.pend u = false

def PcOk (w : St) (g : Ghost) (t : Nat) : Pc → Prop
  | .idle | .tryLock => True
  | .locked | .unlock => w.lk t = some t
  | .check => w.lk t = some t ∧ w.reg t = true
  | .replace | .clear => L w g t
  | .giveBack c => L w g t ∧ w.tc t = some c
  | .again | .readBuf | .reset _ | .setChunk _ => L w g t ∧ w.tc t = none
  | .getChunk h => L w g t ∧ w.tc t = none ∧ w.buf = some h
  | .write => L w g t ∧ w.tc t ≠ none
  | .crit d | .getBuf d => M w t ∧ (d ≤ 1 ∧ (0 < d → g.on = false))
  | .exchange k d => M w t ∧ (d ≤ 1 ∧ (0 < d → g.on = false)) ∧ (k = true → d = 0)
  | .evict k d => w.mutex = some t ∧ g.on = false ∧ (d ≤ 1 ∧ (k = true → d = 0))
  | .evClear k d u => w.mutex = some t ∧ g.on = false ∧ (d ≤ 1 ∧ (k = true → d = 0)) ∧ w.lk u = some t ∧
      w.pend u = true
  | .evUnlock k d u => w.mutex = some t ∧ g.on = false ∧ (d ≤ 1 ∧ (k = true → d = 0)) ∧ w.lk u = some t ∧
      w.pend u = true ∧ w.tc u = none
  | .start d => M w t ∧ d = 0
  | .newBuf d => M w t ∧ d = 0 ∧ g.on = false
  | .turnOn d => M w t ∧ d = 0 ∧ g.on = false ∧ w.buf ≠ none
  | .take d => M w t ∧ d ≤ 1 ∧ g.on = false
  | .dTest d | .dClear d => M w t ∧ (d ≤ 1 ∧ (0 < d → g.on = false)) ∧ w.reg t = true
  | .dReturn c d => M w t ∧ (d ≤ 1 ∧ (0 < d → g.on = false)) ∧ w.reg t = true ∧ w.tc t = some c
  | .dErase d => M w t ∧ (d ≤ 1 ∧ (0 < d → g.on = false)) ∧ w.reg t = true ∧ w.tc t = none

/-- `buffer` and everything in the buffer it points to. -/
def curLoc (w : St) (d : Plain) : Prop := d = .buf ∨ ∃ h, w.buf = some h ∧ part h d = true

structure Inv (w : St) (g : Ghost) : Prop where
  pcs : ∀ t, PcOk w g t (w.pc t)
  mpc : ∀ t, w.mutex = some t → inM (w.pc t) = true
  lkpc : ∀ u s, w.lk u = some s → (s = u ∧ slave (w.pc u) = true) ∨
    ∃ k d, w.pc s = .evClear k d u ∨ w.pc s = .evUnlock k d u
  mfree : w.mutex = none → ∀ u, w.pend u = false
  penReg : ∀ u, w.pend u = true → w.reg u = true
  enTop : ∃ v, w.mem.hist .en g.top = some ⟨if g.on then 1 else 0, v⟩ ∧
    (g.on = true → ∀ u, g.rv u ≤ v.clk u)
  enMax : ∀ ts m, w.mem.hist .en ts = some m → ts ≤ g.top
  enKnow : g.top ≤ (mv w).ts .en
  run : ∀ t ts m, w.reg t = true → w.mem.hist .en ts = some m → m.val ≠ 0 →
    (w.mem.view t).ts .en ≤ ts → (lv w t).ts .en ≤ ts →
    live w g t ∧ ∀ u, g.rv u ≤ m.view.clk u
  act : (g.on = true ∨ ∃ u, w.pend u = true) → ∃ h, w.buf = some h ∧
    (∀ u, w.mem.wr .buf u ≤ g.rv u ∧ w.mem.wr (.obj h) u ≤ g.rv u) ∧
    ∀ i, (w.bufs h).next ≤ i → ∀ u, acc w.mem (.cell h i) u ≤ g.rv u
  tcs : ∀ t c, w.tc t = some c → live w g t ∧ ∀ u, g.rv u ≤ (w.mem.view t).clk u
  heldOk : ∀ t c, held w t = some c → w.buf = some c.1 ∧ c.2 < (w.bufs c.1).next ∧
    ∀ u, acc w.mem (.cell c.1 c.2) u ≤ (w.mem.view t).clk u
  heldInj : ∀ t u c, held w t = some c → held w u = some c → t = u
  bagOk : ∀ h, w.buf = some h → ∀ c v, (c, v) ∈ (w.bufs h).bag → c.1 = h ∧
    c.2 < (w.bufs h).next ∧ (∀ t, held w t ≠ some c) ∧
    ∀ u, acc w.mem (.cell c.1 c.2) u ≤ v.clk u
  bagNodup : ∀ h, w.buf = some h → ((w.bufs h).bag.map Prod.fst).Nodup
  cur : ∀ d, curLoc w d → ∀ u, acc w.mem d u ≤ max ((lv w u).clk u) ((mv w).clk u) ∧
    (¬ live w g u → acc w.mem d u ≤ (mv w).clk u)
  wrM : ∀ u, w.mem.wr .buf u ≤ (mv w).clk u ∧
    ∀ h, w.buf = some h → w.mem.wr (.obj h) u ≤ (mv w).clk u
  tcl : ∀ t u, (u ≠ t → acc w.mem (.tc t) u ≤ (lv w t).clk u ∧
      acc w.mem (.tc t) u ≤ (mv w).clk u) ∧
    acc w.mem (.tc t) t ≤ max ((lv w t).clk t) ((mv w).clk t)
  cfg : ∀ u, acc w.mem .cfg u ≤ (mv w).clk u
  ownOk : ∀ h t, w.own h = some t → w.freed h = false ∧ w.buf ≠ some h ∧ h < w.cnt ∧
    ∀ d, part h d = true → ∀ u, acc w.mem d u ≤ (w.mem.view t).clk u
  bufOk : ∀ h, w.buf = some h → w.freed h = false ∧ h < w.cnt
  fresh : ∀ h d, w.cnt ≤ h → part h d = true → ∀ u, acc w.mem d u = 0
  freshF : ∀ h, w.cnt ≤ h → w.freed h = false
  mine : ∀ d u, acc w.mem d u ≤ (w.mem.view u).clk u

/-- The thread may read the buffer. -/
def rights (w : St) (g : Ghost) (t : Nat) : Prop := (w.lk t = some t ∧ live w g t) ∨ w.mutex = some t

/-- What thread `t` may access. -/
def May (w : St) (g : Ghost) (t : Nat) : Plain → Prop
  | .buf => rights w g t
  | .obj h => (w.buf = some h ∧ rights w g t) ∨ w.own h = some t
  | .cell h i => (held w t = some (h, i) ∧ rights w g t) ∨ w.own h = some t
  | .tc u => (u = t ∧ (w.lk t = some t ∨ w.mutex = some t)) ∨ (w.lk u = some t ∧ w.mutex = some t)
  | .cfg => w.mutex = some t

theorem mv_some {w : St} {t : Nat} (h : w.mutex = some t) : mv w = w.mem.view t := by
  unfold mv; rw [h]

theorem lv_some {w : St} {u t : Nat} (h : w.lk u = some t) : lv w u = w.mem.view t := by
  unfold lv; rw [h]

theorem PcOk.mono {w w' : St} {g : Ghost} {t : Nat} {p : Pc} (h : PcOk w g t p)
    (hlk : w'.lk = w.lk) (hm : w'.mutex = w.mutex) (hr : w'.reg = w.reg) (htc : w'.tc = w.tc)
    (hb : w'.buf = w.buf) (hp : w'.pend = w.pend)
    (hv : ∀ u, (w.mem.view t).clk u ≤ (w'.mem.view t).clk u) : PcOk w' g t p := by
  have hL : L w g t → L w' g t := by
    rintro ⟨h1, h2, h3⟩
    exact ⟨by rw [hlk]; exact h1, by simpa only [live, hr, hp] using h2,
      fun u => Nat.le_trans (h3 u) (hv u)⟩
  have hM : M w t → M w' t := by
    intro h1; simpa only [M, hm, hp] using h1
  cases p <;> simp only [PcOk, hlk, hm, hr, htc, hb, hp] at h ⊢ <;>
    first | exact h | exact hL h | exact ⟨hL h.1, h.2⟩ | exact ⟨hM h.1, h.2⟩

theorem acc_congr {μ μ' : Mem Loc Nat Plain} {d : Plain} {u : Nat} (h1 : μ'.rd d u = μ.rd d u)
    (h2 : μ'.wr d u = μ.wr d u) : acc μ' d u = acc μ d u := by
  unfold acc; rw [h1, h2]

theorem wr_le_acc (μ : Mem Loc Nat Plain) (d : Plain) (u : Nat) : μ.wr d u ≤ acc μ d u :=
  Nat.le_max_right _ _

/-- Memory accesses of thread `t`. -/
theorem Inv.mem {w : St} {g : Ghost} (h : Inv w g) {t : Nat} {μ : Mem Loc Nat Plain} {v : View Loc}
    (hv : μ.view = setf w.mem.view t v) (hle : VLe (w.mem.view t) v)
    (hen : μ.hist .en = w.mem.hist .en)
    (hoth : ∀ k u, u ≠ t → μ.rd k u = w.mem.rd k u ∧ μ.wr k u = w.mem.wr k u)
    (hch : ∀ k, (μ.rd k t = w.mem.rd k t ∧ μ.wr k t = w.mem.wr k t) ∨
      (acc μ k t ≤ v.clk t ∧ May w g t k))
    (hsh : μ.wr .buf t = w.mem.wr .buf t ∧ ∀ h, w.buf = some h → μ.wr (.obj h) t = w.mem.wr (.obj h) t) :
    Inv { w with mem := μ } g := by
  have hvt : μ.view t = v := by rw [hv, setf_self]
  have hvu : ∀ u, VLe (w.mem.view u) (μ.view u) := by rw [hv]; exact vle_setf hle
  have hmv : VLe (mv w) (mv { w with mem := μ }) := by
    unfold mv; dsimp only; split
    · exact hvu _
    · exact VLe.refl _
  have hlv : ∀ u, VLe (lv w u) (lv { w with mem := μ } u) := by
    intro u; unfold lv; dsimp only; split
    · exact hvu _
    · exact VLe.refl _
  have hacc : ∀ k u, acc μ k u = acc w.mem k u ∨ (u = t ∧ acc μ k t ≤ v.clk t ∧ May w g t k) := by
    intro k u
    by_cases e : u = t
    · subst e
      rcases hch k with h1 | h1
      · exact .inl (acc_congr h1.1 h1.2)
      · exact .inr ⟨rfl, h1⟩
    · have := hoth k u e
      exact .inl (acc_congr this.1 this.2)
  have hwb : ∀ u, μ.wr .buf u = w.mem.wr .buf u := by
    intro u
    by_cases e : u = t
    · subst e; exact hsh.1
    · exact (hoth _ u e).2
  have hwo : ∀ h u, w.buf = some h → μ.wr (.obj h) u = w.mem.wr (.obj h) u := by
    intro h' u hb
    by_cases e : u = t
    · subst e; exact hsh.2 h' hb
    · exact (hoth _ u e).2
  have hmvm : w.mutex = some t → mv { w with mem := μ } = v := by
    intro hm; unfold mv; dsimp only; rw [hm]; exact hvt
  have hlvt : ∀ u, w.lk u = some t → lv { w with mem := μ } u = v := by
    intro u hm; unfold lv; dsimp only; rw [hm]; exact hvt
  exact {
    pcs := fun u => (h.pcs u).mono rfl rfl rfl rfl rfl rfl (hvu u).2
    mpc := h.mpc
    lkpc := h.lkpc
    mfree := h.mfree
    penReg := h.penReg
    enTop := by dsimp only; rw [hen]; exact h.enTop
    enMax := by dsimp only; rw [hen]; exact h.enMax
    enKnow := Nat.le_trans h.enKnow (hmv.1 _)
    run := by
      dsimp only; rw [hen]
      intro x ts m h1 h2 h3 h4 h5
      exact h.run x ts m h1 h2 h3 (Nat.le_trans ((hvu x).1 _) h4) (Nat.le_trans ((hlv x).1 _) h5)
    act := by
      intro ha
      obtain ⟨b, h1, h2, h3⟩ := h.act ha
      refine ⟨b, h1, fun u => ?_, fun i hi u => ?_⟩
      · show μ.wr _ _ ≤ _ ∧ μ.wr _ _ ≤ _
        rw [hwb u, hwo b u h1]; exact h2 u
      · show acc μ _ _ ≤ _
        rcases hacc (.cell b i) u with e | ⟨_, _, ⟨e, _⟩ | e⟩
        · rw [e]; exact h3 i hi u
        · exact absurd (h.heldOk _ _ e).2.1 (by dsimp only at hi ⊢; omega)
        · exact absurd h1 (h.ownOk _ _ e).2.1
    tcs := by
      intro x c hc
      have := h.tcs x c hc
      exact ⟨this.1, fun u => Nat.le_trans (this.2 u) ((hvu x).2 u)⟩
    heldOk := by
      intro x c hc
      obtain ⟨h1, h2, h3⟩ := h.heldOk x c hc
      refine ⟨h1, h2, fun u => ?_⟩
      show acc μ _ _ ≤ (μ.view x).clk u
      rcases hacc (.cell c.1 c.2) u with e | ⟨e0, e1, ⟨e, _⟩ | e⟩
      · rw [e]; exact Nat.le_trans (h3 u) ((hvu x).2 u)
      · have : x = t := h.heldInj x t c hc e
        subst this; subst e0; rw [hvt]; exact e1
      · exact absurd h1 (h.ownOk _ _ e).2.1
    heldInj := h.heldInj
    bagOk := by
      intro b hb c x hc
      obtain ⟨h1, h2, h3, h4⟩ := h.bagOk b hb c x hc
      refine ⟨h1, h2, h3, fun u => ?_⟩
      show acc μ _ _ ≤ _
      rcases hacc (.cell c.1 c.2) u with e | ⟨e0, e1, ⟨e, _⟩ | e⟩
      · rw [e]; exact h4 u
      · exact absurd e (h3 t)
      · rw [h1] at e; exact absurd hb (h.ownOk _ _ e).2.1
    bagNodup := h.bagNodup
    cur := by
      intro d hd u
      show acc μ _ _ ≤ _ ∧ (_ → acc μ _ _ ≤ _)
      obtain ⟨h1, h2⟩ := h.cur d hd u
      rcases hacc d u with e | ⟨e0, e1, e2⟩
      · rw [e]
        exact ⟨by have := (hlv u).2 u; have := hmv.2 u; omega,
          fun hn => Nat.le_trans (h2 hn) (hmv.2 u)⟩
      · subst e0
        have hr : rights w g u := by
          rcases hd with rfl | ⟨b, hb, hp⟩
          · exact e2
          · cases d with
            | obj b' =>
              have : b' = b := by simpa [part] using hp
              subst this
              rcases e2 with e2 | e2
              · exact e2.2
              · exact absurd hb (h.ownOk _ _ e2).2.1
            | cell b' i =>
              have : b' = b := by simpa [part] using hp
              subst this
              rcases e2 with e2 | e2
              · exact e2.2
              · exact absurd hb (h.ownOk _ _ e2).2.1
            | _ => simp [part] at hp
        rcases hr with ⟨hr1, hr2⟩ | hr
        · refine ⟨?_, fun hn => absurd hr2 hn⟩
          rw [hlvt u hr1]; omega
        · rw [hmvm hr]; exact ⟨by omega, fun _ => e1⟩
    wrM := by
      intro u
      refine ⟨?_, fun b hb => ?_⟩
      · show μ.wr _ _ ≤ _
        rw [hwb]; exact Nat.le_trans (h.wrM u).1 (hmv.2 u)
      · show μ.wr _ _ ≤ _
        rw [hwo b u hb]; exact Nat.le_trans ((h.wrM u).2 b hb) (hmv.2 u)
    tcl := by
      intro x u
      obtain ⟨h1, h2⟩ := h.tcl x u
      refine ⟨fun hne => ?_, ?_⟩
      · show acc μ _ _ ≤ _ ∧ acc μ _ _ ≤ _
        rcases hacc (.tc x) u with e | ⟨e0, e1, ⟨e, _⟩ | ⟨e2, e3⟩⟩
        · rw [e]
          exact ⟨Nat.le_trans (h1 hne).1 ((hlv x).2 u), Nat.le_trans (h1 hne).2 (hmv.2 u)⟩
        · exact absurd (e0.trans e.symm) hne
        · subst e0; rw [hlvt x e2, hmvm e3]; exact ⟨e1, e1⟩
      · show acc μ _ _ ≤ _
        have hl := (hlv x).2 x
        have hm := hmv.2 x
        rcases hacc (.tc x) x with e | ⟨e0, e1, ⟨_, e2 | e2⟩ | ⟨e2, e3⟩⟩
        · rw [e]; omega
        · subst e0; rw [hlvt x e2]; omega
        · subst e0; rw [hmvm e2]; omega
        · subst e0; rw [hlvt x e2]; omega
    cfg := by
      intro u
      show acc μ _ _ ≤ _
      rcases hacc .cfg u with e | ⟨e0, e1, e2⟩
      · rw [e]; exact Nat.le_trans (h.cfg u) (hmv.2 u)
      · subst e0; rw [hmvm e2]; exact e1
    ownOk := by
      intro b x hb
      obtain ⟨h1, h2, h3, h4⟩ := h.ownOk b x hb
      refine ⟨h1, h2, h3, fun d hd u => ?_⟩
      show acc μ _ _ ≤ (μ.view x).clk u
      rcases hacc d u with e | ⟨e0, e1, e2⟩
      · rw [e]; exact Nat.le_trans (h4 d hd u) ((hvu x).2 u)
      · have hx : x = t := by
          cases d with
          | obj b' =>
            have : b' = b := by simpa [part] using hd
            subst this
            rcases e2 with e2 | e2
            · exact absurd e2.1 h2
            · rw [hb] at e2; cases e2; rfl
          | cell b' i =>
            have : b' = b := by simpa [part] using hd
            subst this
            rcases e2 with e2 | e2
            · exact absurd (h.heldOk _ _ e2.1).1 h2
            · rw [hb] at e2; cases e2; rfl
          | _ => simp [part] at hd
        subst hx; subst e0; rw [hvt]; exact e1
    bufOk := h.bufOk
    fresh := by
      intro b d (hb : w.cnt ≤ b) hd u
      show acc μ _ _ = 0
      rcases hacc d u with e | ⟨e0, e1, e2⟩
      · rw [e]; exact h.fresh b d hb hd u
      · exfalso
        cases d with
        | obj b' =>
          have : b' = b := by simpa [part] using hd
          subst this
          rcases e2 with e2 | e2
          · have := (h.bufOk _ e2.1).2; omega
          · have := (h.ownOk _ _ e2).2.2.1; omega
        | cell b' i =>
          have : b' = b := by simpa [part] using hd
          subst this
          rcases e2 with e2 | e2
          · have := (h.bufOk _ (h.heldOk _ _ e2.1).1).2; dsimp only at this; omega
          · have := (h.ownOk _ _ e2).2.2.1; omega
        | _ => simp [part] at hd
    freshF := h.freshF
    mine := by
      intro d u
      show acc μ _ _ ≤ (μ.view u).clk u
      rcases hacc d u with e | ⟨e0, e1, e2⟩
      · rw [e]; exact Nat.le_trans (h.mine d u) ((hvu u).2 u)
      · subst e0; rw [hvt]; exact e1 }

/-- What the program counter of `t` says survives a step that leaves the locks of `t` alone. -/
theorem PcOk.frame {w w' : St} {g g' : Ghost} {t : Nat} {p : Pc} (h : PcOk w g t p)
    (hM : w.mutex = some t → w'.mutex = some t ∧ w'.pend = w.pend ∧ g'.on = g.on ∧ w'.buf = w.buf)
    (hL : L w g t → L w' g' t ∧ w'.buf = w.buf)
    (hlk : ∀ x, w.lk x = some t → w'.lk x = some t ∧ w'.tc x = w.tc x)
    (hr : w'.reg t = w.reg t) (htc : w'.tc t = w.tc t) : PcOk w' g' t p := by
  have hM' : M w t → M w' t ∧ g'.on = g.on ∧ w'.buf = w.buf := by
    rintro ⟨h1, h2⟩
    have := hM h1
    exact ⟨⟨this.1, by rw [this.2.1]; exact h2⟩, this.2.2⟩
  cases p with
  | idle => trivial
  | tryLock => trivial
  | locked => exact (hlk _ h).1
  | unlock => exact (hlk _ h).1
  | check => exact ⟨(hlk _ h.1).1, by rw [hr]; exact h.2⟩
  | replace => exact (hL h).1
  | clear => exact (hL h).1
  | giveBack c => exact ⟨(hL h.1).1, by rw [htc]; exact h.2⟩
  | again => exact ⟨(hL h.1).1, by rw [htc]; exact h.2⟩
  | readBuf => exact ⟨(hL h.1).1, by rw [htc]; exact h.2⟩
  | reset => exact ⟨(hL h.1).1, by rw [htc]; exact h.2⟩
  | setChunk => exact ⟨(hL h.1).1, by rw [htc]; exact h.2⟩
  | getChunk => exact ⟨(hL h.1).1, by rw [htc]; exact h.2.1, by rw [(hL h.1).2]; exact h.2.2⟩
  | write => exact ⟨(hL h.1).1, by rw [htc]; exact h.2⟩
  | crit d => have := hM' h.1; exact ⟨this.1, by rw [this.2.1]; exact h.2⟩
  | getBuf d => have := hM' h.1; exact ⟨this.1, by rw [this.2.1]; exact h.2⟩
  | exchange k d => have := hM' h.1; exact ⟨this.1, by rw [this.2.1]; exact h.2.1, h.2.2⟩
  | evict k d => have := hM h.1; exact ⟨this.1, by rw [this.2.2.1]; exact h.2.1, h.2.2⟩
  | evClear k d u =>
    have := hM h.1
    obtain ⟨h1, h2, h3, h4, h5⟩ := h
    exact ⟨this.1, by rw [this.2.2.1]; exact h2, h3, (hlk _ h4).1, by rw [this.2.1]; exact h5⟩
  | evUnlock k d u =>
    have := hM h.1
    obtain ⟨h1, h2, h3, h4, h5, h6⟩ := h
    exact ⟨this.1, by rw [this.2.2.1]; exact h2, h3, (hlk _ h4).1, by rw [this.2.1]; exact h5,
      by rw [(hlk _ h4).2]; exact h6⟩
  | start d => have := hM' h.1; exact ⟨this.1, h.2⟩
  | newBuf d => have := hM' h.1; exact ⟨this.1, h.2.1, by rw [this.2.1]; exact h.2.2⟩
  | turnOn d =>
    have := hM' h.1
    exact ⟨this.1, h.2.1, by rw [this.2.1]; exact h.2.2.1, by rw [this.2.2]; exact h.2.2.2⟩
  | take d => have := hM' h.1; exact ⟨this.1, h.2.1, by rw [this.2.1]; exact h.2.2⟩
  | dTest d =>
    have := hM' h.1; exact ⟨this.1, by rw [this.2.1]; exact h.2.1, by rw [hr]; exact h.2.2⟩
  | dClear d =>
    have := hM' h.1; exact ⟨this.1, by rw [this.2.1]; exact h.2.1, by rw [hr]; exact h.2.2⟩
  | dReturn c d =>
    have := hM' h.1
    exact ⟨this.1, by rw [this.2.1]; exact h.2.1, by rw [hr]; exact h.2.2.1,
      by rw [htc]; exact h.2.2.2⟩
  | dErase d =>
    have := hM' h.1
    exact ⟨this.1, by rw [this.2.1]; exact h.2.1, by rw [hr]; exact h.2.2.1,
      by rw [htc]; exact h.2.2.2⟩

/-- Steps that leave memory, buffers and registrations alone. -/
theorem Inv.ctl0 {w w' : St} {g : Ghost} (h : Inv w g) (e1 : w'.mem = w.mem) (e2 : w'.reg = w.reg)
    (e3 : w'.buf = w.buf) (e4 : w'.cnt = w.cnt) (e5 : w'.freed = w.freed) (e6 : w'.own = w.own)
    (e7 : w'.pend = w.pend) (hmv : VLe (mv w) (mv w')) (hlv : ∀ u, VLe (lv w u) (lv w' u))
    (pcs : ∀ t, PcOk w' g t (w'.pc t)) (mpc : ∀ t, w'.mutex = some t → inM (w'.pc t) = true)
    (lkpc : ∀ u s, w'.lk u = some s → (s = u ∧ slave (w'.pc u) = true) ∨
      ∃ k d, w'.pc s = .evClear k d u ∨ w'.pc s = .evUnlock k d u)
    (mfree : w'.mutex = none → ∀ u, w.pend u = false)
    (tcs : ∀ t c, w'.tc t = some c → w.tc t = some c ∨
      (live w g t ∧ ∀ u, g.rv u ≤ (w.mem.view t).clk u))
    (next : ∀ b, (w.bufs b).next ≤ (w'.bufs b).next)
    (heldOk : ∀ t c, held w' t = some c → w.buf = some c.1 ∧ c.2 < (w'.bufs c.1).next ∧
      ∀ u, acc w.mem (.cell c.1 c.2) u ≤ (w.mem.view t).clk u)
    (heldInj : ∀ t u c, held w' t = some c → held w' u = some c → t = u)
    (bagOk : ∀ b, w.buf = some b → ∀ c v, (c, v) ∈ (w'.bufs b).bag → c.1 = b ∧
      c.2 < (w'.bufs b).next ∧ (∀ t, held w' t ≠ some c) ∧
      ∀ u, acc w.mem (.cell c.1 c.2) u ≤ v.clk u)
    (bagNodup : ∀ b, w.buf = some b → ((w'.bufs b).bag.map Prod.fst).Nodup) : Inv w' g := by
  have hlive : ∀ t, live w' g t ↔ live w g t := by intro t; simp only [live, e2, e7]
  exact {
    pcs := pcs
    mpc := mpc
    lkpc := lkpc
    mfree := by rw [e7]; exact mfree
    penReg := by rw [e7, e2]; exact h.penReg
    enTop := by rw [e1]; exact h.enTop
    enMax := by rw [e1]; exact h.enMax
    enKnow := Nat.le_trans h.enKnow (hmv.1 _)
    run := by
      rw [e1, e2]
      intro t ts m h1 h2 h3 h4 h5
      rw [hlive]
      exact h.run t ts m h1 h2 h3 h4 (Nat.le_trans ((hlv t).1 _) h5)
    act := by
      rw [e1, e3, e7]
      intro ha
      obtain ⟨b, h1, h2, h3⟩ := h.act ha
      exact ⟨b, h1, h2, fun i hi => h3 i (Nat.le_trans (next b) hi)⟩
    tcs := by
      rw [e1]
      intro t c hc
      rw [hlive]
      rcases tcs t c hc with h1 | h1
      · exact h.tcs t c h1
      · exact h1
    heldOk := by rw [e1, e3]; exact heldOk
    heldInj := heldInj
    bagOk := by rw [e1, e3]; exact bagOk
    bagNodup := by rw [e3]; exact bagNodup
    cur := by
      rw [e1]
      intro d hd u
      rw [hlive]
      have hd' : curLoc w d := by simpa only [curLoc, e3] using hd
      obtain ⟨h1, h2⟩ := h.cur d hd' u
      exact ⟨by have := (hlv u).2 u; have := hmv.2 u; omega,
        fun hn => Nat.le_trans (h2 hn) (hmv.2 u)⟩
    wrM := by
      rw [e1, e3]
      intro u
      exact ⟨Nat.le_trans (h.wrM u).1 (hmv.2 u),
        fun b hb => Nat.le_trans ((h.wrM u).2 b hb) (hmv.2 u)⟩
    tcl := by
      rw [e1]
      intro t u
      obtain ⟨h1, h2⟩ := h.tcl t u
      exact ⟨fun hne => ⟨Nat.le_trans (h1 hne).1 ((hlv t).2 u), Nat.le_trans (h1 hne).2 (hmv.2 u)⟩,
        by have := (hlv t).2 t; have := hmv.2 t; omega⟩
    cfg := by rw [e1]; exact fun u => Nat.le_trans (h.cfg u) (hmv.2 u)
    ownOk := by rw [e1, e3, e4, e5, e6]; exact h.ownOk
    bufOk := by rw [e3, e4, e5]; exact h.bufOk
    fresh := by rw [e1, e4]; exact h.fresh
    freshF := by rw [e4, e5]; exact h.freshF
    mine := by rw [e1]; exact h.mine }

/-- The same, when no chunk changes hands. -/
theorem Inv.ctl {w w' : St} {g : Ghost} (h : Inv w g) (e1 : w'.mem = w.mem) (e2 : w'.reg = w.reg)
    (e3 : w'.buf = w.buf) (e4 : w'.cnt = w.cnt) (e5 : w'.freed = w.freed) (e6 : w'.own = w.own)
    (e7 : w'.pend = w.pend) (e8 : w'.bufs = w.bufs)
    (hmv : VLe (mv w) (mv w')) (hlv : ∀ u, VLe (lv w u) (lv w' u))
    (pcs : ∀ t, PcOk w' g t (w'.pc t)) (mpc : ∀ t, w'.mutex = some t → inM (w'.pc t) = true)
    (lkpc : ∀ u s, w'.lk u = some s → (s = u ∧ slave (w'.pc u) = true) ∨
      ∃ k d, w'.pc s = .evClear k d u ∨ w'.pc s = .evUnlock k d u)
    (mfree : w'.mutex = none → ∀ u, w.pend u = false)
    (tcs : ∀ t c, w'.tc t = some c → w.tc t = some c ∨
      (live w g t ∧ ∀ u, g.rv u ≤ (w.mem.view t).clk u))
    (hh : ∀ t, held w' t = held w t ∨ held w' t = none) : Inv w' g := by
  have hs : ∀ t c, held w' t = some c → held w t = some c := by
    intro t c hc
    rcases hh t with e | e
    · rw [← e]; exact hc
    · rw [e] at hc; cases hc
  refine h.ctl0 e1 e2 e3 e4 e5 e6 e7 hmv hlv pcs mpc lkpc mfree tcs
    (fun b => by rw [e8]; exact Nat.le_refl _) ?_ ?_ ?_ ?_
  · intro t c hc; rw [e8]; exact h.heldOk t c (hs t c hc)
  · intro t u c h1 h2; exact h.heldInj t u c (hs t c h1) (hs u c h2)
  · intro b hb c v hc
    rw [e8] at hc ⊢
    obtain ⟨h1, h2, h3, h4⟩ := h.bagOk b hb c v hc
    exact ⟨h1, h2, fun t ht => h3 t (hs t c ht), h4⟩
  · intro b hb; rw [e8]; exact h.bagNodup b hb

theorem held_goto {w : St} {t : Nat} {p : Pc} {μ : Mem Loc Nat Plain} {u : Nat} (hu : u ≠ t) :
    held (w.goto t p μ) u = held w u := by
  unfold held St.goto; dsimp only; rw [setf_ne _ _ hu]

/-- Thread `t` goes on. -/
theorem Inv.goto {w : St} {g : Ghost} (h : Inv w g) {t : Nat} {p : Pc}
    (hp : PcOk w g t p) (hs : slave p = slave (w.pc t)) (hm : inM p = inM (w.pc t))
    (hev : ∀ k d u, w.pc t ≠ .evClear k d u ∧ w.pc t ≠ .evUnlock k d u)
    (hh : held (w.goto t p w.mem) t = held w t ∨ held (w.goto t p w.mem) t = none) :
    Inv (w.goto t p w.mem) g := by
  have hpc : ∀ u, u ≠ t → (w.goto t p w.mem).pc u = w.pc u := fun u hu => setf_ne _ _ hu
  have hpt : (w.goto t p w.mem).pc t = p := setf_self _ _ _
  refine h.ctl rfl rfl rfl rfl rfl rfl rfl rfl (VLe.refl _) (fun _ => VLe.refl _) ?_ ?_ ?_ h.mfree
    (fun _ _ hc => .inl hc) ?_
  · intro u
    by_cases e : u = t
    · subst e; rw [hpt]; exact hp.mono rfl rfl rfl rfl rfl rfl (fun _ => Nat.le_refl _)
    · rw [hpc u e]; exact (h.pcs u).mono rfl rfl rfl rfl rfl rfl (fun _ => Nat.le_refl _)
  · intro u hu
    by_cases e : u = t
    · subst e; rw [hpt, hm]; exact h.mpc _ hu
    · rw [hpc u e]; exact h.mpc u hu
  · intro u s hu
    rcases h.lkpc u s hu with ⟨h1, h2⟩ | ⟨k, d, h1⟩
    · refine .inl ⟨h1, ?_⟩
      by_cases e : u = t
      · subst e; rw [hpt, hs]; exact h2
      · rw [hpc u e]; exact h2
    · have e : s ≠ t := by
        rintro rfl
        have := hev k d u
        rcases h1 with h1 | h1
        · exact this.1 h1
        · exact this.2 h1
      exact .inr ⟨k, d, by rw [hpc s e]; exact h1⟩
  · intro u
    by_cases e : u = t
    · subst e; exact hh
    · exact .inl (held_goto e)

/-! Memory accesses. -/

theorem Inv.view {w : St} {g : Ghost} (h : Inv w g) {t : Nat} {μ : Mem Loc Nat Plain}
    {v : View Loc} (hv : μ.view = setf w.mem.view t v) (hle : VLe (w.mem.view t) v)
    (hen : μ.hist .en = w.mem.hist .en) (hr : μ.rd = w.mem.rd) (hw : μ.wr = w.mem.wr) :
    Inv { w with mem := μ } g :=
  h.mem hv hle hen (fun _ _ _ => by rw [hr, hw]; exact ⟨rfl, rfl⟩)
    (fun _ => .inl (by rw [hr, hw]; exact ⟨rfl, rfl⟩)) (by rw [hw]; exact ⟨rfl, fun _ _ => rfl⟩)

theorem Inv.load {w : St} {g : Ghost} (h : Inv w g) (t : Nat) (l : Loc) (ts : Nat) (m : Msg Loc Nat) :
    Inv { w with mem := w.mem.loadAcq t l ts m } g :=
  h.view rfl ((vle_see _ _ _).trans (vle_left _ _)) rfl rfl rfl

theorem Inv.learn {w : St} {g : Ghost} (h : Inv w g) (t : Nat) (v : View Loc) :
    Inv { w with mem := learn w.mem t v } g :=
  h.view rfl (vle_left _ _) rfl rfl rfl

theorem read_rd (μ : Mem Loc Nat Plain) (t : Nat) (d k : Plain) (u : Nat) (h : k ≠ d ∨ u ≠ t) :
    (μ.read t d).rd k u = μ.rd k u := by
  unfold Mem.read; dsimp only
  split
  · next e =>
    subst e
    rcases h with h | h
    · exact absurd rfl h
    · exact setf_ne _ _ h
  · rfl

theorem write_wr (μ : Mem Loc Nat Plain) (t : Nat) (d k : Plain) (u : Nat) (h : k ≠ d ∨ u ≠ t) :
    (μ.write t d).wr k u = μ.wr k u := by
  unfold Mem.write; dsimp only
  split
  · next e =>
    subst e
    rcases h with h | h
    · exact absurd rfl h
    · exact setf_ne _ _ h
  · rfl

theorem Inv.read {w : St} {g : Ghost} (h : Inv w g) {t : Nat} {d : Plain} (hd : May w g t d) :
    Inv { w with mem := w.mem.read t d } g := by
  refine h.mem (t := t) rfl (vle_tick _ _) rfl
    (fun k u hu => ⟨read_rd _ _ _ _ _ (.inr hu), rfl⟩) ?_ ⟨rfl, fun _ _ => rfl⟩
  intro k
  by_cases e : k = d
  · subst e
    right
    refine ⟨?_, hd⟩
    have h1 := h.mine k t
    have h2 := wr_le_acc w.mem k t
    have h3 : (w.mem.read t k).rd k t = (w.mem.view t).clk t + 1 := by simp [Mem.read]
    have h4 : (w.mem.read t k).wr k t = w.mem.wr k t := rfl
    have h5 : ((w.mem.view t).tick t).clk t = (w.mem.view t).clk t + 1 := by simp [View.tick]
    unfold acc; rw [h3, h4, h5]; omega
  · exact .inl ⟨read_rd _ _ _ _ _ (.inl e), rfl⟩

theorem Inv.write {w : St} {g : Ghost} (h : Inv w g) {t : Nat} {d : Plain} (hd : May w g t d)
    (hb : d ≠ .buf) (ho : ∀ b, d ≠ .obj b) : Inv { w with mem := w.mem.write t d } g := by
  refine h.mem (t := t) rfl (vle_tick _ _) rfl
    (fun k u hu => ⟨rfl, write_wr _ _ _ _ _ (.inr hu)⟩) ?_
    ⟨write_wr _ _ _ _ _ (.inl hb.symm), fun b _ => write_wr _ _ _ _ _ (.inl (ho b).symm)⟩
  intro k
  by_cases e : k = d
  · subst e
    right
    refine ⟨?_, hd⟩
    have h1 := h.mine k t
    have h2 : w.mem.rd k t ≤ acc w.mem k t := Nat.le_max_left _ _
    have h3 : (w.mem.write t k).wr k t = (w.mem.view t).clk t + 1 := by simp [Mem.write]
    have h4 : (w.mem.write t k).rd k t = w.mem.rd k t := rfl
    have h5 : ((w.mem.view t).tick t).clk t = (w.mem.view t).clk t + 1 := by simp [View.tick]
    unfold acc; rw [h3, h4, h5]; omega
  · exact .inl ⟨rfl, write_wr _ _ _ _ _ (.inl e)⟩

end Phosphor.TLog.W
