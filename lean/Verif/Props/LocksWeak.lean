import Verif.Model.TraceLogWeakLock
import Verif.Props.StartWeak
import Verif.Props.ProgressWeak
import Mathlib.Tactic.ByContra
/-
C110: the trace log over a release/acquire memory, with the compare-exchanges and stores of the chunk
locks in the same memory: what was proved of it with chunk locks as objects holds.
-/
namespace Phosphor.TLog.W
open Phosphor.Weak

/-- The state with a holder and knowledge of each lock. -/
def St.with (w : St) (lk : Nat → Option Nat) (lview : Nat → View Loc) : St := { w with lk := lk, lview := lview }

/-- The word of the lock of `u` says what the lock object says. -/
def WordOk (w : St) (u : Nat) : Prop :=
  ∃ top m, w.mem.hist (lockAt u) top = some m ∧
    (∀ ts m', w.mem.hist (lockAt u) ts = some m' → ts ≤ top) ∧
    (∀ ts m', w.mem.hist (lockAt u) ts = some m' → m'.val = 0 → ts < top → w.mem.hist (lockAt u) (ts + 1) ≠ none) ∧
    ((m.val = 0 ∧ w.lk u = none ∧ VLe (w.lview u) m.view) ∨
      (m.val ≠ 0 ∧ m.val = (if slave (w.pc u) then 1 else 2) ∧ ∃ s, w.lk u = some s ∧ top ≤ (w.mem.view s).ts (lockAt u)))

theorem lockAt_inj {u v : Nat} (h : lockAt u = lockAt v) : u = v := by
  unfold lockAt at h; injection h; omega

theorem WordOk.keep {w w' : St} {u : Nat} (h : WordOk w u) (hh : w'.mem.hist (lockAt u) = w.mem.hist (lockAt u))
    (hk : w'.lk u = w.lk u) (hl : w'.lview u = w.lview u) (hv : ∀ s, VLe (w.mem.view s) (w'.mem.view s))
    (hs : slave (w'.pc u) = slave (w.pc u)) : WordOk w' u := by
  obtain ⟨top, m, h1, h2, h3, h4⟩ := h
  refine ⟨top, m, by rw [hh]; exact h1, by rw [hh]; exact h2, by rw [hh]; exact h3, ?_⟩
  rw [hk, hl]
  rcases h4 with x | ⟨a, z, s, b, c⟩
  · exact .inl x
  · exact .inr ⟨a, by rw [hs]; exact z, s, b, Nat.le_trans c ((hv s).1 _)⟩

/-- A read-modify-write is a load followed by a store. -/
theorem rmw_eq (μ : Mem Loc Nat Plain) (t : Nat) (l : Loc) (ts : Nat) (m : Msg Loc Nat) (v : Nat) :
    (μ.loadAcq t l ts m).storeRel t l (ts + 1) v = μ.rmwAcqRel t l ts m v := by
  have e : ((((μ.view t).see l ts).join m.view).see l (ts + 1)) = ((μ.view t).see l (ts + 1)).join m.view := by
    unfold View.join View.see
    congr 1
    funext k
    by_cases h : k = l
    · subst h; simp; omega
    · simp [h]
  unfold Mem.storeRel Mem.rmwAcqRel Mem.loadAcq
  simp only [setf_self, e]
  congr 2
  funext x
  by_cases h : x = t
  · subst h; simp [setf]
  · simp [setf, h]

theorem learn_known {μ : Mem Loc Nat Plain} {t : Nat} {v : View Loc} (h : VLe v (μ.view t)) : learn μ t v = μ := by
  have e : (μ.view t).join v = μ.view t := by
    unfold View.join
    cases hv : μ.view t with
    | mk a b =>
      rw [hv] at h
      congr 1
      · funext l; exact Nat.max_eq_left (h.1 l)
      · funext u; exact Nat.max_eq_left (h.2 u)
  unfold learn
  rw [e]
  cases μ
  congr 1
  funext x
  by_cases h : x = t
  · subst h; simp [setf]
  · simp [setf, h]

/-- A step that empties no chunk, stores no event and leaves `enabled`, the buffers and the registered threads alone. -/
structure Quiet (a b : St) : Prop where
  step : Step true a b
  write : ∀ t, a.pc t = .write → b.pc t = .write
  reset : ∀ t c, a.pc t = .reset c → b.pc t = .reset c
  en : b.mem.hist .en = a.mem.hist .en
  reg : b.reg = a.reg
  bufs : b.bufs = a.bufs

/-- A property of states that such steps keep. -/
def Kept (R : St → Prop) : Prop := ∀ a b, Reachable true a → R a → Quiet a b → R b

/-- A reachable state with such a property. -/
def RR (R : St → Prop) (w : St) : Prop := Reachable true w ∧ R w

theorem RR.q {R : St → Prop} (hR : Kept R) {a b : St} (h : RR R a) (hq : Quiet a b) : RR R b :=
  ⟨h.1.step hq.step, hR _ _ h.1 h.2 hq⟩

theorem Quiet.move {a b : St} {t : Nat} {p q : Pc} (hs : Step true a b) (hq : a.pc t = q) (hp : b.pc = setf a.pc t p)
    (h1 : q ≠ .write) (h2 : ∀ c, q ≠ .reset c) (he : b.mem.hist .en = a.mem.hist .en) (hr : b.reg = a.reg)
    (hb : b.bufs = a.bufs) : Quiet a b := by
  have key : ∀ {r u}, q ≠ r → a.pc u = r → b.pc u = r := by
    intro r u hr hu
    have : u ≠ t := fun e => by subst e; exact hr (hq.symm.trans hu)
    rw [hp, setf_ne _ _ this]; exact hu
  exact ⟨hs, fun u hu => key h1 hu, fun u c hu => key (h2 c) hu, he, hr, hb⟩

theorem Quiet.load {a : St} {t u ts : Nat} {m : Msg Loc Nat} (hr : a.mem.readable t (lockAt u) ts m) :
    Quiet a { a with mem := a.mem.loadAcq t (lockAt u) ts m } :=
  ⟨.extLoad (n := 2 * u) hr, fun _ h => h, fun _ _ h => h, rfl, rfl, rfl⟩

theorem Quiet.store {a : St} {t u ts v : Nat} (hf : a.mem.free t (lockAt u) ts) :
    Quiet a { a with mem := a.mem.storeRel t (lockAt u) ts v } :=
  ⟨.extStore (n := 2 * u) hf, fun _ h => h, fun _ _ h => h, by funext i; simp [Mem.storeRel, Mem.add, lockAt], rfl, rfl⟩

/-- The lock is free and a compare-exchange takes it: its word is the newest, and the thread comes to know what was
known at the release. -/
theorem take {R : St → Prop} (hR : Kept R) {w : St} (h : RR R w) {t u ts v : Nat} {m : Msg Loc Nat} (ho : WordOk w u)
    (hr : w.mem.readable t (lockAt u) ts m) (hn : w.mem.hist (lockAt u) (ts + 1) = none) (h0 : m.val = 0) :
    RR R { w with mem := w.mem.rmwAcqRel t (lockAt u) ts m v } ∧ w.lk u = none ∧
    learn (w.mem.rmwAcqRel t (lockAt u) ts m v) t (w.lview u) = w.mem.rmwAcqRel t (lockAt u) ts m v ∧
    (v ≠ 0 → ∀ w' : St, w'.mem = w.mem.rmwAcqRel t (lockAt u) ts m v → w'.lk u = some t →
      v = (if slave (w'.pc u) then 1 else 2) → WordOk w' u) := by
  obtain ⟨top, m0, h1, h2, h3, h4⟩ := ho
  have e : ts = top := by
    rcases Nat.lt_or_ge ts top with x | x
    · exact absurd hn (h3 ts m hr.1 h0 x)
    · exact Nat.le_antisymm (h2 _ _ hr.1) x
  subst e
  have em : m0 = m := by have := hr.1; rw [h1] at this; injection this
  subst em
  have hmv : m0.view.ts (lockAt u) ≤ ts := by
    obtain ⟨x, hx⟩ := h.1.wfs.mem.msg _ _ _ h1 (lockAt u)
    exact h2 _ _ hx
  have r1 := h.q hR (.load hr)
  have r2 := r1.q hR (.store (t := t) (u := u) (ts := ts + 1) (v := v) ⟨hn, by
    show ((setf w.mem.view t _) t).ts (lockAt u) < ts + 1
    rw [setf_self]
    have := hr.2
    simp [View.join, View.see, lockAt] at this hmv ⊢
    omega⟩)
  have hvw : ((w.mem.rmwAcqRel t (lockAt u) ts m0 v).view t) = ((w.mem.view t).see (lockAt u) (ts + 1)).join m0.view := by
    unfold Mem.rmwAcqRel Mem.add; exact setf_self _ _ _
  refine ⟨?_, ?_, ?_, fun hv w' em ek eq => ?_⟩
  · have := rmw_eq w.mem t (lockAt u) ts m0 v
    rw [← this]; exact r2
  · rcases h4 with x | ⟨x, -⟩
    · exact x.2.1
    · exact absurd h0 x
  · rcases h4 with x | ⟨x, -⟩
    · refine learn_known ?_
      rw [hvw]; exact x.2.2.trans (vle_right _ _)
    · exact absurd h0 x
  · have hx : ∀ i, w'.mem.hist (lockAt u) i =
        if i = ts + 1 then some ⟨v, ((w.mem.view t).see (lockAt u) (ts + 1)).join m0.view⟩ else w.mem.hist (lockAt u) i := by
      intro i; rw [em]; simp [Mem.rmwAcqRel, Mem.add]
    refine ⟨ts + 1, _, (hx _).trans (if_pos rfl), fun i m' hi => ?_, fun i m' hi hz hl => ?_, .inr ⟨hv, eq, t, ek, ?_⟩⟩
    · rw [hx] at hi
      split at hi
      · omega
      · have := h2 _ _ hi; omega
    · rw [hx] at hi
      rw [if_neg (by omega)] at hi
      rw [hx]
      split
      · simp
      · exact h3 i m' hi hz (by omega)
    · rw [em, hvw]
      simp [View.join, View.see]
      omega

/-- The holder of a lock releases it: the new word is the newest. -/
theorem release {w : St} {t u ts : Nat} (ho : WordOk w u) (hk : w.lk u = some t) (hf : w.mem.free t (lockAt u) ts)
    {w' : St} (hm : w'.mem = w.mem.storeRel t (lockAt u) ts 0) (hk' : w'.lk u = none) (hl : w'.lview u = w'.mem.view t) :
    WordOk w' u := by
  obtain ⟨top, m0, h1, h2, h3, h4⟩ := ho
  obtain ⟨hz, -, s, hs, htop⟩ : m0.val ≠ 0 ∧ m0.val = (if slave (w.pc u) then 1 else 2) ∧
      ∃ s, w.lk u = some s ∧ top ≤ (w.mem.view s).ts (lockAt u) := by
    rcases h4 with x | x
    · rw [hk] at x; exact absurd x.2.1 (by simp)
    · exact x
  have : s = t := by rw [hk] at hs; injection hs with e; exact e.symm
  subst this
  have hlt := hf.2
  have hx : ∀ i, w'.mem.hist (lockAt u) i =
      if i = ts then some ⟨0, (w.mem.view s).see (lockAt u) ts⟩ else w.mem.hist (lockAt u) i := by
    intro i; rw [hm]; simp [Mem.storeRel, Mem.add]
  refine ⟨ts, _, (hx _).trans (if_pos rfl), fun i m' hi => ?_, fun i m' hi h0 hlt' => ?_, .inl ⟨rfl, hk', ?_⟩⟩
  · rw [hx] at hi
    split at hi
    · omega
    · have := h2 _ _ hi; omega
  · rw [hx, if_neg (by omega)] at hi
    have hi' := h2 _ _ hi
    have : i ≠ top := by
      rintro rfl; rw [h1] at hi; injection hi with e; exact hz (e ▸ h0)
    rw [hx]
    split
    · simp
    · exact h3 i m' hi h0 (by omega)
  · rw [hl, hm]
    show VLe (setf w.mem.view s _ s) _
    rw [setf_self]; exact VLe.refl _

theorem hist_other {μ μ' : Mem Loc Nat Plain} {u v t ts x : Nat} {m : Msg Loc Nat} (h : u ≠ v)
    (e : μ' = μ.rmwAcqRel t (lockAt v) ts m x ∨ μ' = μ.storeRel t (lockAt v) ts x) :
    μ'.hist (lockAt u) = μ.hist (lockAt u) := by
  have hne : lockAt u ≠ lockAt v := fun e => h (lockAt_inj e)
  rcases e with rfl | rfl
  · funext i; simp [Mem.rmwAcqRel, Mem.add, hne]
  · funext i; simp [Mem.storeRel, Mem.add, hne]

/-- A thread that goes from outside the part between locking and unlocking to outside of it. -/
theorem slave_setf (pc : Nat → Pc) (t : Nat) (p : Pc) {u : Nat} (h : slave (pc t) = false) (hp : slave p = false) :
    slave (setf pc t p u) = slave (pc u) := by
  by_cases e : u = t
  · subst e; rw [setf_self, h, hp]
  · rw [setf_ne _ _ e]

/-- A thread between locking and unlocking has its lock. -/
theorem slave_lk {w : St} (hr : Reachable true w) {u : Nat} (h : slave (w.pc u) = true) : w.lk u = some u := by
  obtain ⟨g, hg⟩ := inv_reachable hr
  have := hg.pcs u
  cases hq : w.pc u <;> rw [hq] at this h <;> first | (cases h; done) | exact this | exact this.1 | exact this.1.1

/-- A thread is between locking and unlocking as before, unless it locks or unlocks. -/
theorem step_slave {w w' : St} (hr : Reachable true w) (hs : Step true w w') {u : Nat} (hk : w'.lk = w.lk) :
    slave (w'.pc u) = slave (w.pc u) := by
  have key : ∀ {t : Nat} {p : Pc}, w'.pc = setf w.pc t p → slave p = slave (w.pc t) → slave (w'.pc u) = slave (w.pc u) := by
    intro t p e hp
    by_cases x : u = t
    · subst x; rw [e, setf_self]; exact hp
    · rw [e, setf_ne _ _ x]
  cases hs with
  | other | extLoad | extStore | ownRead | ownGive | ownFree => rfl
  | @unlock t hq =>
    exfalso
    obtain ⟨g, hg⟩ := inv_reachable hr
    have h1 : w.lk t = some t := hg.here (μ := w.mem) (w := w) hq
    have h2 : setf w.lk t none t = w.lk t := congrFun hk t
    rw [setf_self, h1] at h2; cases h2
  | @tryOk t hq h1 =>
    exfalso
    have h2 : setf w.lk t (some t) t = w.lk t := congrFun hk t
    rw [setf_self, h1] at h2; cases h2
  | newBuf _ _ hq => exact key (by simp [St.goto]; rfl) (by rw [hq]; rfl)
  | logOff hq | logOn hq | tryFail hq | notReg hq | noChunk hq | fullChunk hq | room hq | checkOff hq | checkOn hq
  | replaceNone hq | replaceSome hq | giveBack hq | clear hq | againOff hq | againOn hq | bufNone hq | bufSome hq
  | fresh hq | reuse hq | exhausted hq | reset hq | setChunk hq | write hq | lockM hq | unlockM hq | cfg hq
  | statsNone hq | statsSome hq | stop hq | resume hq | start hq | startOff hq | startOn hq | turnOn hq
  | getBuf hq | getBufOn hq | getBufOff hq | take hq | register hq | deregister hq | dNone hq | dSome hq
  | dReturnNone hq | dReturn hq | dClear hq | dErase hq | exchangeOn hq | exchangeOff hq | evLock hq | evClear hq | evUnlock hq | evDone hq =>
    exact key rfl (by rw [hq]; first | done | rfl | (split <;> rfl))

/-- What is known of a state of the log with lock words: there are holders and knowledge for which it is one of the log
with lock objects. -/
def GoodR (R : St → Prop) (w : St) (lk : Nat → Option Nat) (lview : Nat → View Loc) : Prop :=
  RR R (w.with lk lview) ∧ ∀ u, WordOk (w.with lk lview) u

/-- The holder of a lock loads its word. -/
theorem good_look {R : St → Prop} (hR : Kept R) {w : St} {lk : Nat → Option Nat} {lview : Nat → View Loc} (h : GoodR R w lk lview) {t u ts : Nat} {m : Msg Loc Nat}
    (hre : w.mem.readable t (lockAt u) ts m) (hn : w.mem.hist (lockAt u) (ts + 1) = none)
    (hk : lk u = some t) : RR R (St.with { w with mem := w.mem.loadAcq t (lockAt u) ts m } lk lview) ∧
    (∀ x, WordOk (St.with { w with mem := w.mem.loadAcq t (lockAt u) ts m } lk lview) x) ∧
    (w.mem.loadAcq t (lockAt u) ts m).free t (lockAt u) (ts + 1) := by
  obtain ⟨hr, hw⟩ := h
  refine ⟨hr.q hR (.load hre), fun x => (hw x).keep rfl rfl rfl (fun s => vm_load _ _ _ _ _ _) rfl, hn, ?_⟩
  have hmv : m.view.ts (lockAt u) ≤ ts := by
    obtain ⟨top, m0, a, b, -, c⟩ := hw u
    obtain ⟨y, hy⟩ := hr.1.wfs.mem.msg _ _ _ (show (w.with lk lview).mem.hist (lockAt u) ts = some m from hre.1) (lockAt u)
    refine Nat.le_trans (b _ _ hy) ?_
    rcases c with ⟨-, x, -⟩ | ⟨-, -, s, y, z⟩
    · rw [show lk u = none from x] at hk; cases hk
    · have y : lk u = some s := y
      rw [hk] at y; injection y with y; subst y
      exact Nat.le_trans z hre.2
  show ((setf w.mem.view t _) t).ts (lockAt u) < ts + 1
  rw [setf_self]
  have := hre.2
  simp [View.join, View.see] at this hmv ⊢
  omega

theorem good_unlock {R : St → Prop} (hR : Kept R) {w : St} {lk : Nat → Option Nat} {lview : Nat → View Loc} (h : GoodR R w lk lview) {t ts : Nat} (hq : w.pc t = .unlock)
    (hf : w.mem.free t (lockAt t) ts) :
    ∃ lk' lview', GoodR R (w.goto t .idle (w.mem.storeRel t (lockAt t) ts 0)) lk' lview' := by
  obtain ⟨hr, hw⟩ := h
  obtain ⟨g, hg⟩ := inv_reachable hr.1
  have hk : lk t = some t := hg.here (μ := w.mem) (w := w.with lk lview) hq
  have r := hr.q hR (.store (t := t) (u := t) (ts := ts) (v := 0) hf)
  have r' := r.q hR (.move (.unlock (t := t) hq) hq rfl (by simp) (by simp) rfl rfl rfl)
  refine ⟨setf lk t none, setf lview t ((w.mem.storeRel t (lockAt t) ts 0).view t), r', fun u => ?_⟩
  by_cases e : u = t
  · subst e; exact release (hw u) hk hf rfl (setf_self _ _ _) (setf_self _ _ _)
  · exact (hw u).keep (hist_other (m := ⟨0, View.bot⟩) e (.inr rfl)) (setf_ne _ _ e) (setf_ne _ _ e)
      (fun s => vm_store _ _ _ _ _ _) (congrArg slave (setf_ne _ _ e))

theorem good_evUnlock {R : St → Prop} (hR : Kept R) {w : St} {lk : Nat → Option Nat} {lview : Nat → View Loc} (h : GoodR R w lk lview) {t d u ts : Nat} {k : Bool}
    (hq : w.pc t = .evUnlock k d u) (hf : w.mem.free t (lockAt u) ts) :
    ∃ lk' lview', GoodR R { w.goto t (.evict k d) (w.mem.storeRel t (lockAt u) ts 0) with pend := setf w.pend u false } lk' lview' := by
  obtain ⟨hr, hw⟩ := h
  obtain ⟨g, hg⟩ := inv_reachable hr.1
  have hk : lk u = some t := (hg.here (μ := w.mem) (w := w.with lk lview) hq).2.2.2.1
  have r := hr.q hR (.store (t := t) (u := u) (ts := ts) (v := 0) hf)
  have r' := r.q hR (.move (.evUnlock (t := t) hq) hq rfl (by simp) (by simp) rfl rfl rfl)
  refine ⟨setf lk u none, setf lview u ((w.mem.storeRel t (lockAt u) ts 0).view t), r', fun x => ?_⟩
  by_cases e : x = u
  · subst e; exact release (hw x) hk hf rfl (setf_self _ _ _) (setf_self _ _ _)
  · exact (hw x).keep (hist_other (m := ⟨0, View.bot⟩) e (.inr rfl)) (setf_ne _ _ e) (setf_ne _ _ e)
      (fun s => vm_store _ _ _ _ _ _) (slave_setf w.pc _ _ (by rw [hq]; rfl) rfl)

theorem good_step {R : St → Prop} (hR : Kept R) {w w' : St} {lk : Nat → Option Nat} {lview : Nat → View Loc} (h : GoodR R w lk lview)
    (hs : LStep w w') (ho : Step true (w.with lk lview) (w'.with lk lview) → R (w'.with lk lview)) :
    ∃ lk' lview', GoodR R w' lk' lview' := by
  obtain ⟨hr, hw⟩ := h
  cases hs with
  | other h1 h2 h3 =>
    refine ⟨lk, lview, ⟨hr.1.step (h1 lk lview), ho (h1 lk lview)⟩, fun u => (hw u).keep (h2 u) rfl rfl (fun s => ?_)
      (step_slave hr.1 (h1 lk lview) rfl)⟩
    exact step_view (h1 lk lview) s
  | @tryOk t ts m hq hre hn h0 =>
    obtain ⟨r, hk, hl, ho⟩ := take hR (v := 1) hr (hw t) hre hn h0
    have r' := r.q hR (.move (.tryOk (t := t) hq hk) hq rfl (by simp) (by simp) rfl rfl rfl)
    refine ⟨setf lk t (some t), lview, ?_, fun u => ?_⟩
    · have e : ({ St.goto { w.with lk lview with mem := w.mem.rmwAcqRel t (lockAt t) ts m 1 } t .locked
          (learn (w.mem.rmwAcqRel t (lockAt t) ts m 1) t (lview t)) with lk := setf lk t (some t) } : St) =
          (w.goto t .locked (w.mem.rmwAcqRel t (lockAt t) ts m 1)).with (setf lk t (some t)) lview := by
        rw [show learn (w.mem.rmwAcqRel t (lockAt t) ts m 1) t (lview t) = _ from hl]; rfl
      rw [← e]; exact r'
    · by_cases e : u = t
      · subst e; exact ho (by decide) _ rfl (setf_self _ _ _) (by simp [St.with, St.goto, setf, slave])
      · exact (hw u).keep (hist_other e (.inl rfl)) (setf_ne _ _ e) rfl (fun s => vm_rmw _ _ _ _ _ _ _)
          (congrArg slave (setf_ne _ _ e))
  | @tryAgain t ts m hq hre h0 =>
    have r := hr.q hR (.load hre)
    have e : setf w.pc t .tryLock = w.pc := by
      funext x; by_cases e : x = t
      · subst e; rw [setf_self, hq]
      · rw [setf_ne _ _ e]
    refine ⟨lk, lview, ?_, fun u => (hw u).keep rfl rfl rfl (fun s => vm_load _ _ _ _ _ _)
      (slave_setf w.pc _ _ (by rw [hq]; rfl) rfl)⟩
    unfold St.goto; rw [e]; exact r
  | @tryFail t ts m hq hre h0 =>
    have r := hr.q hR (.load hre)
    exact ⟨lk, lview, r.q hR (.move (.tryFail (t := t) hq) hq rfl (by simp) (by simp) rfl rfl rfl), fun u => (hw u).keep rfl rfl rfl (fun s => vm_load _ _ _ _ _ _)
      (slave_setf w.pc _ _ (by rw [hq]; rfl) rfl)⟩
  | unlock hq hf => exact good_unlock hR ⟨hr, hw⟩ hq hf
  | @unlockD t ts m hq hre hn h0 =>
    obtain ⟨g, hg⟩ := inv_reachable hr.1
    obtain ⟨a, b, c⟩ := good_look hR ⟨hr, hw⟩ hre hn (hg.here (μ := w.mem) (w := w.with lk lview) hq)
    have := good_unlock hR (w := { w with mem := w.mem.loadAcq t (lockAt t) ts m }) ⟨a, b⟩ hq c
    rw [← rmw_eq]; exact this
  | @evLock t k d u ts m hq hp hre hn h0 =>
    obtain ⟨r, hk, hl, ho⟩ := take hR (v := 2) hr (hw u) hre hn h0
    have r' := r.q hR (.move (.evLock (t := t) (u := u) hq hp hk) hq rfl (by simp) (by simp) rfl rfl rfl)
    refine ⟨setf lk u (some t), lview, ?_, fun x => ?_⟩
    · have e : ({ St.goto { w.with lk lview with mem := w.mem.rmwAcqRel t (lockAt u) ts m 2 } t (.evClear k d u)
          (learn (w.mem.rmwAcqRel t (lockAt u) ts m 2) t (lview u)) with lk := setf lk u (some t) } : St) =
          (w.goto t (.evClear k d u) (w.mem.rmwAcqRel t (lockAt u) ts m 2)).with (setf lk u (some t)) lview := by
        rw [show learn (w.mem.rmwAcqRel t (lockAt u) ts m 2) t (lview u) = _ from hl]; rfl
      rw [← e]; exact r'
    · by_cases e : x = u
      · subst e; exact ho (by decide) _ rfl (setf_self _ _ _) ((if_neg (by
          show ¬ slave (setf w.pc t _ x) = true
          rw [slave_setf w.pc _ _ (by rw [hq]; rfl) rfl]
          intro z
          have := slave_lk hr.1 (u := x) z
          rw [hk] at this; cases this)).symm)
      · exact (hw x).keep (hist_other e (.inl rfl)) (setf_ne _ _ e) rfl (fun s => vm_rmw _ _ _ _ _ _ _)
          (slave_setf w.pc _ _ (by rw [hq]; rfl) rfl)
  | @evAgain t k d u ts m hq hp hre =>
    have r := hr.q hR (.load hre)
    have e : setf w.pc t (.evict k d) = w.pc := by
      funext x; by_cases e : x = t
      · subst e; rw [setf_self, hq]
      · rw [setf_ne _ _ e]
    refine ⟨lk, lview, ?_, fun u => (hw u).keep rfl rfl rfl (fun s => vm_load _ _ _ _ _ _)
      (slave_setf w.pc _ _ (by rw [hq]; rfl) rfl)⟩
    unfold St.goto; rw [e]; exact r
  | evUnlock hq hf => exact good_evUnlock hR ⟨hr, hw⟩ hq hf
  | @evUnlockD t k d u ts m hq hre hn h0 =>
    obtain ⟨g, hg⟩ := inv_reachable hr.1
    obtain ⟨a, b, c⟩ := good_look hR ⟨hr, hw⟩ hre hn (hg.here (μ := w.mem) (w := w.with lk lview) hq).2.2.2.1
    have := good_evUnlock hR (w := { w with mem := w.mem.loadAcq t (lockAt u) ts m }) ⟨a, b⟩ hq c
    rw [← rmw_eq]; exact this

/-- What is known of a state, with no further property. -/
def Good (w : St) (lk : Nat → Option Nat) (lview : Nat → View Loc) : Prop :=
  Reachable true (w.with lk lview) ∧ ∀ u, WordOk (w.with lk lview) u

theorem good {w : St} (h : LReachable w) : ∃ lk lview, Good w lk lview := by
  induction h with
  | init =>
    refine ⟨fun _ => none, fun _ => View.bot, .init, fun u => ⟨0, ⟨0, View.bot⟩, rfl, fun ts m' hx => ?_, fun ts _ _ _ hl => ?_,
      .inl ⟨rfl, rfl, VLe.refl _⟩⟩⟩
    · by_contra hc
      have : ts ≠ 0 := by omega
      simp [St.with, St.init, Mem.init, this] at hx
    · omega
  | step _ hs ih =>
    obtain ⟨lk, lview, hg⟩ := ih
    obtain ⟨lk', lview', a, b⟩ := good_step (R := fun _ => True) (fun _ _ _ h _ => h) ⟨⟨hg.1, trivial⟩, hg.2⟩ hs fun _ => trivial
    exact ⟨lk', lview', a.1, b⟩

/-! ### What holds -/

/-- C110: every state of the log with lock words is one of the log with lock objects, for the holders that the newest
words say: nobody if it is `Unlocked`. -/
theorem C110_refines {w : St} (h : LReachable w) :
    ∃ lk lview, Reachable true { w with lk := lk, lview := lview } ∧ ∀ u, ∃ ts m, w.mem.hist (lockAt u) ts = some m ∧
      (∀ ts' m', w.mem.hist (lockAt u) ts' = some m' → ts' ≤ ts) ∧ (m.val = 0 ↔ lk u = none) := by
  obtain ⟨lk, lview, h1, h2⟩ := good h
  refine ⟨lk, lview, h1, fun u => ?_⟩
  obtain ⟨ts, m, a, b, -, c⟩ := h2 u
  refine ⟨ts, m, a, b, ?_⟩
  rcases c with x | ⟨x, -, s, y, -⟩
  · exact ⟨fun _ => x.2.1, fun _ => x.1⟩
  · exact ⟨fun z => absurd z x, fun z => by rw [show lk u = some s from y] at z; cases z⟩

/-- A step that has to do with locks accesses no plain memory. -/
theorem plain_step {w w' : St} (hs : LStep w w') : (w'.mem.rd = w.mem.rd ∧ w'.mem.wr = w.mem.wr) ∨
    ∀ lk lview, Step true { w with lk := lk, lview := lview } { w' with lk := lk, lview := lview } := by
  cases hs with
  | other h => exact .inr h
  | _ => exact .inl ⟨rfl, rfl⟩

/-- C110: no data race. -/
theorem C110_no_race {w w' : St} (h : LReachable w) (hs : LStep w w') (t : Nat) (d : Plain) :
    (w'.mem.rd d t ≠ w.mem.rd d t → ∀ u, w.mem.wr d u ≤ (w.mem.view t).clk u) ∧
    (w'.mem.wr d t ≠ w.mem.wr d t → ∀ u, w.mem.wr d u ≤ (w.mem.view t).clk u ∧
      w.mem.rd d u ≤ (w.mem.view t).clk u) := by
  obtain ⟨lk, lview, h1, -⟩ := good h
  rcases plain_step hs with ⟨a, b⟩ | x
  · rw [a, b]; exact ⟨fun c => absurd rfl c, fun c => absurd rfl c⟩
  · exact C65_no_race h1 (x lk lview) t d

/-- C110: no access to a buffer that has been destroyed. -/
theorem C110_no_use_after_free {w w' : St} (h : LReachable w) (hs : LStep w w') (t b i : Nat) :
    (w'.mem.rd (.obj b) t ≠ w.mem.rd (.obj b) t ∨ w'.mem.wr (.obj b) t ≠ w.mem.wr (.obj b) t ∨
      w'.mem.rd (.cell b i) t ≠ w.mem.rd (.cell b i) t ∨
      w'.mem.wr (.cell b i) t ≠ w.mem.wr (.cell b i) t) → w.freed b = false := by
  obtain ⟨lk, lview, h1, -⟩ := good h
  rcases plain_step hs with ⟨a, c⟩ | x
  · rw [a, c]; rintro (c | c | c | c) <;> exact absurd rfl c
  · exact C65_no_use_after_free h1 (x lk lview) t b i

/-- C110: two threads that write to chunks, write to different ones. -/
theorem C110_exclusive {w : St} (h : LReachable w) {t u : Nat} {c : Chunk}
    (ht : (w.pc t = .write ∧ w.tc t = some c) ∨ w.pc t = .reset c)
    (hu : (w.pc u = .write ∧ w.tc u = some c) ∨ w.pc u = .reset c) : t = u := by
  obtain ⟨lk, lview, h1, -⟩ := good h
  exact C65_exclusive h1 ht hu

/-- C110: once a stop is over no thread has a chunk or is about to use the buffer. -/
theorem C110_none {w : St} (h : LReachable w) (ho : w.off) (hp : ∀ u, w.pend u = false) (t : Nat) :
    w.tc t = none ∧ w.pc t ≠ .write ∧ w.pc t ≠ .readBuf ∧ (∀ b, w.pc t ≠ .getChunk b) ∧
      ∀ c, w.pc t ≠ .reset c ∧ w.pc t ≠ .setChunk c ∧ w.pc t ≠ .giveBack c := by
  obtain ⟨lk, lview, h1, -⟩ := good h
  exact C104_none h1 ho hp t

/-- C110: and the thread that runs the stopped callback, or has the mutex later while tracing is off, knows every event
stored in the buffer and every other access to it. -/
theorem C110_known {w : St} (h : LReachable w) (ho : w.off) {t d : Nat} (hq : w.pc t = .crit d)
    {b : Nat} (hb : w.buf = some b) {k : Plain} (hk : k = .obj b ∨ ∃ i, k = .cell b i) (u : Nat) :
    w.mem.wr k u ≤ (w.mem.view t).clk u ∧ w.mem.rd k u ≤ (w.mem.view t).clk u := by
  obtain ⟨lk, lview, h1, -⟩ := good h
  exact C104_known h1 ho hq hb hk u

/-- C110: while a thread is between locking and unlocking its chunk lock no thread evicts it. -/
theorem C110_locked {w : St} (h : LReachable w) {u s : Nat} {k : Bool} {d : Nat} (hu : slave (w.pc u) = true) :
    w.pc s ≠ .evClear k d u ∧ w.pc s ≠ .evUnlock k d u := by
  obtain ⟨lk, lview, h1, -⟩ := good h
  obtain ⟨g, hg⟩ := inv_reachable h1
  have a : lk u = some u := slave_lk h1 (u := u) hu
  have key : lk u = some s → ∀ p : Pc, slave p = false → w.pc s ≠ p := by
    intro b p hp e
    rw [a] at b; injection b with b; subst b
    rw [e, hp] at hu; cases hu
  refine ⟨fun e => ?_, fun e => ?_⟩
  · have := hg.here (μ := w.mem) (w := w.with lk lview) e
    exact key this.2.2.2.1 _ rfl e
  · have := hg.here (μ := w.mem) (w := w.with lk lview) e
    exact key this.2.2.2.1 _ rfl e

/-- C110: the assertions in the unlocks of a build without `NDEBUG` hold: the compare-exchange can read nothing but the
value it expects, and it can be made. -/
theorem C110_assert {w : St} (h : LReachable w) {t u ts : Nat} {m : Msg Loc Nat} (hr : w.mem.readable t (lockAt u) ts m) :
    (w.pc t = .unlock → u = t → m.val = 1 ∧ LStep w (w.goto t .idle (w.mem.rmwAcqRel t (lockAt u) ts m 0))) ∧
    (∀ k d, w.pc t = .evUnlock k d u → m.val = 2 ∧
      LStep w { w.goto t (.evict k d) (w.mem.rmwAcqRel t (lockAt u) ts m 0) with pend := setf w.pend u false }) := by
  obtain ⟨lk, lview, h1, h2⟩ := good h
  obtain ⟨g, hg⟩ := inv_reachable h1
  have key : lk u = some t → m.val = (if slave (w.pc u) then 1 else 2) ∧ w.mem.hist (lockAt u) (ts + 1) = none := by
    intro hk
    obtain ⟨top, m0, a, b, -, c⟩ := h2 u
    rcases c with ⟨-, x, -⟩ | ⟨-, x, s, y, z⟩
    · rw [show lk u = none from x] at hk; cases hk
    · have y : lk u = some s := y
      rw [hk] at y; injection y with y; subst y
      have z : top ≤ (w.mem.view t).ts (lockAt u) := z
      have e : ts = top := Nat.le_antisymm (b _ _ hr.1) (Nat.le_trans z hr.2)
      subst e
      have : m0 = m := by have := hr.1; rw [show w.mem.hist (lockAt u) ts = some m0 from a] at this; injection this
      subst this
      refine ⟨x, ?_⟩
      cases e : w.mem.hist (lockAt u) (ts + 1) with
      | none => rfl
      | some y => have := b _ _ e; omega
  refine ⟨fun hq e => ?_, fun k d hq => ?_⟩
  · subst e
    have := key (hg.here (μ := w.mem) (w := w.with lk lview) hq)
    rw [hq] at this; exact ⟨this.1, .unlockD hq hr this.2 this.1⟩
  · have hk : lk u = some t := (hg.here (μ := w.mem) (w := w.with lk lview) hq).2.2.2.1
    have := key hk
    rw [if_neg] at this
    · exact ⟨this.1, .evUnlockD hq hr this.2 this.1⟩
    · intro z
      have hk' := slave_lk h1 (u := u) z
      rw [show (w.with lk lview).lk u = _ from hk] at hk'; injection hk' with e; subst e
      rw [hq] at z; cases z

/-! ### Nothing is lost: the steps with lock objects can be made with lock words -/

/-- A step with lock objects that moves a thread is one of four kinds or has nothing to do with locks. -/
theorem step_kind {w w1 : St} {lk : Nat → Option Nat} {lview : Nat → View Loc} (hs : Step true (w.with lk lview) w1)
    {t : Nat} (hne : w1.pc t ≠ w.pc t) (h1 : w.pc t ≠ .tryLock) (h2 : w.pc t ≠ .unlock) (h3 : ∀ k d, w.pc t ≠ .evict k d)
    (h4 : ∀ k d u, w.pc t ≠ .evUnlock k d u) :
    LStep w (w1.with w.lk w.lview) := by
  have mine : ∀ {t' : Nat} {p q : Pc}, w1.pc = setf w.pc t' p → w.pc t' = q →
      (q = .tryLock ∨ q = .unlock ∨ (∃ k d, q = .evict k d) ∨ ∃ k d u, q = .evUnlock k d u) → False := by
    intro t' p q e hq hx
    have : t' = t := by
      by_contra hc; exact hne (by rw [e, setf_ne _ _ (Ne.symm hc)])
    subst this
    rcases hx with rfl | rfl | ⟨k, d, rfl⟩ | ⟨k, d, u, rfl⟩
    · exact h1 hq
    · exact h2 hq
    · exact h3 _ _ hq
    · exact h4 _ _ _ hq
  have key : ∀ {t' : Nat} {p q : Pc}, w1.pc = setf w.pc t' p → w.pc t' = q → q ≠ .tryLock →
      (∀ lk' lview', Step true { w with lk := lk', lview := lview' } { w1 with lk := lk', lview := lview' }) →
      (∀ u, w1.mem.hist (lockAt u) = w.mem.hist (lockAt u)) → LStep w (w1.with w.lk w.lview) := by
    intro t' p q e hq hx a b
    refine .other a b (fun x hp => ?_) rfl rfl
    show w1.pc x = .tryLock
    by_cases z : x = t'
    · subst z; exact absurd (hq.symm.trans hp) hx
    · rw [e, setf_ne _ _ z]; exact hp
  cases hs with
  | other => exact absurd rfl hne
  | extLoad => exact absurd rfl hne
  | extStore => exact absurd rfl hne
  | logOff a1 a2 a3 => exact key rfl a1 (by simp) (fun _ _ => .logOff a1 a2 a3) (fun _ => rfl)
  | logOn a1 a2 a3 => exact key rfl a1 (by simp) (fun _ _ => .logOn a1 a2 a3) (fun _ => rfl)
  | tryFail a1 => exact (mine rfl a1 (by simp)).elim
  | tryOk a1 a2 => exact (mine rfl a1 (by simp)).elim
  | notReg a1 a2 => exact key rfl a1 (by simp) (fun _ _ => .notReg a1 a2) (fun _ => rfl)
  | noChunk a1 a2 a3 => exact key rfl a1 (by simp) (fun _ _ => .noChunk a1 a2 a3) (fun _ => rfl)
  | fullChunk a1 a2 a3 => exact key rfl a1 (by simp) (fun _ _ => .fullChunk a1 a2 a3) (fun _ => rfl)
  | room a1 a2 a3 => exact key rfl a1 (by simp) (fun _ _ => .room a1 a2 a3) (fun _ => rfl)
  | checkOff a1 a2 a3 => exact key rfl a1 (by simp) (fun _ _ => .checkOff a1 a2 a3) (fun _ => rfl)
  | checkOn a1 a2 a3 => exact key rfl a1 (by simp) (fun _ _ => .checkOn a1 a2 a3) (fun _ => rfl)
  | replaceNone a1 a2 => exact key rfl a1 (by simp) (fun _ _ => .replaceNone a1 a2) (fun _ => rfl)
  | replaceSome a1 a2 => exact key rfl a1 (by simp) (fun _ _ => .replaceSome a1 a2) (fun _ => rfl)
  | giveBack a1 a2 => exact key rfl a1 (by simp) (fun _ _ => .giveBack a1 a2) (fun _ => rfl)
  | clear a1 => exact key rfl a1 (by simp) (fun _ _ => .clear a1) (fun _ => rfl)
  | againOff a1 a2 a3 => exact key rfl a1 (by simp) (fun _ _ => .againOff a1 a2 a3) (fun _ => rfl)
  | againOn a1 a2 a3 => exact key rfl a1 (by simp) (fun _ _ => .againOn a1 a2 a3) (fun _ => rfl)
  | bufNone a1 a2 => exact key rfl a1 (by simp) (fun _ _ => .bufNone a1 a2) (fun _ => rfl)
  | bufSome a1 a2 => exact key rfl a1 (by simp) (fun _ _ => .bufSome a1 a2) (fun _ => rfl)
  | fresh a1 a2 => exact key rfl a1 (by simp) (fun _ _ => .fresh a1 a2) (fun _ => rfl)
  | reuse a1 a2 a3 => exact key rfl a1 (by simp) (fun _ _ => .reuse a1 a2 a3) (fun _ => rfl)
  | exhausted a1 a2 => exact key rfl a1 (by simp) (fun _ _ => .exhausted a1 a2) (fun _ => rfl)
  | reset a1 => exact key rfl a1 (by simp) (fun _ _ => .reset a1) (fun _ => rfl)
  | setChunk a1 => exact key rfl a1 (by simp) (fun _ _ => .setChunk a1) (fun _ => rfl)
  | write a1 a2 => exact key rfl a1 (by simp) (fun _ _ => .write a1 a2) (fun _ => rfl)
  | unlock a1 => exact (mine rfl a1 (by simp)).elim
  | lockM a1 a2 => exact key rfl a1 (by simp) (fun _ _ => .lockM a1 a2) (fun _ => rfl)
  | unlockM a1 => exact key rfl a1 (by simp) (fun _ _ => .unlockM a1) (fun _ => rfl)
  | cfg a1 => exact key rfl a1 (by simp) (fun _ _ => .cfg a1) (fun _ => rfl)
  | statsNone a1 a2 => exact key rfl a1 (by simp) (fun _ _ => .statsNone a1 a2) (fun _ => rfl)
  | statsSome a1 a2 => exact key rfl a1 (by simp) (fun _ _ => .statsSome a1 a2) (fun _ => rfl)
  | stop a1 => exact key rfl a1 (by simp) (fun _ _ => .stop a1) (fun _ => rfl)
  | exchangeOff a1 a2 a3 a4 => exact key rfl a1 (by simp) (fun _ _ => .exchangeOff a1 a2 a3 a4) (fun _ => rfl)
  | exchangeOn a1 a2 a3 a4 => exact key rfl a1 (by simp) (fun _ _ => .exchangeOn a1 a2 a3 a4) (fun _ => rfl)
  | evLock a1 a2 a3 => exact (mine rfl a1 (by simp)).elim
  | evClear a1 => exact key rfl a1 (by simp) (fun _ _ => .evClear a1) (fun _ => rfl)
  | evUnlock a1 => exact (mine rfl a1 (by simp)).elim
  | evDone a1 a2 => exact (mine rfl a1 (by simp)).elim
  | resume a1 => exact key rfl a1 (by simp) (fun _ _ => .resume a1) (fun _ => rfl)
  | start a1 a2 => exact key rfl a1 (by simp) (fun _ _ => .start a1 a2) (fun _ => rfl)
  | startOff a1 a2 a3 => exact key rfl a1 (by simp) (fun _ _ => .startOff a1 a2 a3) (fun _ => rfl)
  | startOn a1 a2 a3 => exact key rfl a1 (by simp) (fun _ _ => .startOn a1 a2 a3) (fun _ => rfl)
  | newBuf a1 a2 a3 => exact key rfl a3 (by simp) (fun _ _ => .newBuf a1 a2 a3) (fun _ => rfl)
  | turnOn a1 a2 => exact key rfl a1 (by simp) (fun _ _ => .turnOn a1 a2) (fun _ => rfl)
  | getBuf a1 => exact key rfl a1 (by simp) (fun _ _ => .getBuf a1) (fun _ => rfl)
  | getBufOn a1 a2 a3 => exact key rfl a1 (by simp) (fun _ _ => .getBufOn a1 a2 a3) (fun _ => rfl)
  | getBufOff a1 a2 a3 => exact key rfl a1 (by simp) (fun _ _ => .getBufOff a1 a2 a3) (fun _ => rfl)
  | take a1 => exact key rfl a1 (by simp) (fun _ _ => .take a1) (fun _ => rfl)
  | register a1 a2 => exact key rfl a1 (by simp) (fun _ _ => .register a1 a2) (fun _ => rfl)
  | deregister a1 a2 => exact key rfl a1 (by simp) (fun _ _ => .deregister a1 a2) (fun _ => rfl)
  | dNone a1 a2 => exact key rfl a1 (by simp) (fun _ _ => .dNone a1 a2) (fun _ => rfl)
  | dSome a1 a2 => exact key rfl a1 (by simp) (fun _ _ => .dSome a1 a2) (fun _ => rfl)
  | dReturnNone a1 a2 => exact key rfl a1 (by simp) (fun _ _ => .dReturnNone a1 a2) (fun _ => rfl)
  | dReturn a1 a2 => exact key rfl a1 (by simp) (fun _ _ => .dReturn a1 a2) (fun _ => rfl)
  | dClear a1 => exact key rfl a1 (by simp) (fun _ _ => .dClear a1) (fun _ => rfl)
  | dErase a1 => exact key rfl a1 (by simp) (fun _ _ => .dErase a1) (fun _ => rfl)
  | ownRead => exact absurd rfl hne
  | ownGive => exact absurd rfl hne
  | ownFree => exact absurd rfl hne

/-- The newest word of a lock can be read, and there is room after it. -/
theorem word {w : St} {lk : Nat → Option Nat} {lview : Nat → View Loc} (h : Good w lk lview) (t u : Nat) :
    ∃ top m, w.mem.readable t (lockAt u) top m ∧ w.mem.hist (lockAt u) (top + 1) = none ∧
      w.mem.free t (lockAt u) (top + 1) ∧ (m.val = 0 ↔ lk u = none) ∧
      (m.val ≠ 0 → m.val = if slave (w.pc u) then 1 else 2) := by
  obtain ⟨top, m, a, b, -, c⟩ := h.2 u
  have a : w.mem.hist (lockAt u) top = some m := a
  have b : ∀ ts m', w.mem.hist (lockAt u) ts = some m' → ts ≤ top := b
  have hv : (w.mem.view t).ts (lockAt u) ≤ top := by
    obtain ⟨x, hx⟩ := h.1.wfs.mem.view t (lockAt u)
    exact b _ _ hx
  have hn : w.mem.hist (lockAt u) (top + 1) = none := by
    cases e : w.mem.hist (lockAt u) (top + 1) with
    | none => rfl
    | some x => have := b _ _ e; omega
  refine ⟨top, m, ⟨a, hv⟩, hn, ⟨hn, by omega⟩, ?_⟩
  rcases c with x | ⟨x, y, s, z, -⟩
  · exact ⟨⟨fun _ => x.2.1, fun _ => x.1⟩, fun y => absurd x.1 y⟩
  · have z : lk u = some s := z
    exact ⟨⟨fun y => absurd y x, fun y => by rw [z] at y; cases y⟩, fun _ => y⟩

/-- C110: a thread in any call can go on, unless it is in the loop of `getChunk` of a ring with no
chunk, or it is evicting the threads and each one that is left to evict is between `try_lock` and
`unlock`. -/
theorem C110_moves {w : St} (h : LReachable w) {t : Nat} (ht : w.pc t ≠ .idle) :
    (∃ w', LStep w w' ∧ w'.pc t ≠ w.pc t) ∨ Starved w t ∨
      ∃ k d, w.pc t = .evict k d ∧ ∀ u, w.pend u = true → (w.pc u).logging = true ∧ w.pc u ≠ .tryLock := by
  obtain ⟨lk, lview, hg⟩ := good h
  by_cases h1 : w.pc t = .tryLock
  · obtain ⟨top, m, hr, hn, -, -, hs⟩ := word hg t t
    by_cases h0 : m.val = 0
    · exact .inl ⟨_, .tryOk h1 hr hn h0, by simp [St.goto, setf, h1]⟩
    · have h2 := hs h0
      rw [h1] at h2
      exact .inl ⟨_, .tryFail h1 hr h2, by simp [St.goto, setf, h1]⟩
  by_cases h2 : w.pc t = .unlock
  · obtain ⟨top, m, -, -, hf, -⟩ := word hg t t
    exact .inl ⟨_, .unlock h2 hf, by simp [St.goto, setf, h2]⟩
  by_cases h4 : ∃ k d u, w.pc t = .evUnlock k d u
  · obtain ⟨k, d, u, h4⟩ := h4
    obtain ⟨top, m, -, -, hf, -⟩ := word hg t u
    exact .inl ⟨_, .evUnlock h4 hf, by simp [St.goto, setf, h4]⟩
  by_cases h3 : ∃ k d, w.pc t = .evict k d
  · obtain ⟨k, d, h3⟩ := h3
    by_cases hp : ∃ u, w.pend u = true ∧ lk u = none
    · obtain ⟨u, hu, hk⟩ := hp
      obtain ⟨top, m, hr, hn, -, h0, -⟩ := word hg t u
      exact .inl ⟨_, .evLock h3 hu hr hn (h0.2 hk), by simp [St.goto, setf, h3]⟩
    · refine .inr (.inr ⟨k, d, h3, fun u hu => ?_⟩)
      obtain ⟨g, hi⟩ := inv_reachable hg.1
      have hh := hi.pcs t
      rw [show (w.with lk lview).pc t = _ from h3] at hh
      cases hk : lk u with
      | none => exact absurd ⟨u, hu, hk⟩ hp
      | some s =>
        rcases hi.lkpc u s hk with ⟨e, hs⟩ | ⟨k', d', hs⟩
        · subst e
          have hs : slave (w.pc s) = true := hs
          cases hx : w.pc s <;> rw [hx] at hs <;> first | (cases hs; done) | exact ⟨rfl, by simp⟩
        · exfalso
          have hm : w.mutex = some s := by
            have := hi.pcs s
            rcases hs with e | e <;> rw [e] at this <;> exact this.1
          have : s = t := by have := hh.1; rw [show (w.with lk lview).mutex = _ from hm] at this; injection this
          subst this
          rcases hs with e | e <;> rw [show (w.with lk lview).pc s = _ from h3] at e <;> cases e
  · rcases C106_moves hg.1 (t := t) (by exact ht) with ⟨w1, hs, hne⟩ | x | ⟨k', d', e, -⟩
    · exact .inl ⟨_, step_kind hs hne h1 h2 (fun k d e => h3 ⟨k, d, e⟩) (fun k d u e => h4 ⟨k, d, u, e⟩), hne⟩
    · exact .inr (.inl x)
    · exact absurd ⟨k', d', e⟩ h3

theorem LReachable.go {w w1 : St} (r : LReachable w) {t : Nat} {p q : Pc} (hs : Step true (w.with w.lk w.lview) w1)
    (hq : w.pc t = q) (hp : w1.pc t = p) (hne : p ≠ q)
    (hx : q ≠ .tryLock ∧ q ≠ .unlock ∧ (∀ k d, q ≠ .evict k d) ∧ ∀ k d u, q ≠ .evUnlock k d u) :
    LReachable (w1.with w.lk w.lview) := by
  subst hq; subst hp
  exact r.step (step_kind hs hne hx.1 hx.2.1 hx.2.2.1 hx.2.2.2)

theorem LReachable.register {w : St} (r : LReachable w) {t : Nat} (hq : w.pc t = .crit 0) (hr : w.reg t = false) :
    LReachable { w.goto t (.crit 0) (w.mem.write t .cfg) with reg := setf w.reg t true } := by
  refine r.step (.other (fun _ _ => .register hq hr) (fun _ => rfl) (fun x hx => ?_) rfl rfl)
  have : x ≠ t := fun e => by subst e; rw [hq] at hx; cases hx
  exact (setf_ne _ _ this).trans hx

/-- A case: thread 0 starts tracing, thread 1 registers and logs, has its chunk lock and is about to store the event;
thread 0 has begun to stop and has thread 1 to evict. The word of the lock is `SlaveLocked`. -/
theorem exWord : ∃ (w : St) (m : Msg Loc Nat), LReachable w ∧ (w.bufs 0).ring = false ∧ w.pc 0 = .evict false 0 ∧ w.pc 1 = .write ∧ w.tc 1 = some (0, 0) ∧
    w.pend 1 = true ∧ w.mem.hist (lockAt 1) 1 = some m ∧ m.val = 1 ∧ w.mem.hist (lockAt 1) 2 = none ∧ w.mem.hist (lockAt 1) 3 = none ∧
    (w.mem.view 0).ts (lockAt 1) = 0 ∧ (w.mem.view 1).ts (lockAt 1) = 1 := by
  have r := LReachable.init
  have r := r.go (.lockM (t := 0) rfl rfl) (t := 0) (q := .idle) (p := .crit 0) rfl rfl (by simp) (by simp)
  have r := r.go (.start (t := 0) rfl (fun _ => rfl)) (t := 0) (q := .crit 0) (p := .start 0) rfl rfl (by simp) (by simp)
  have r := r.go (.startOff (t := 0) (ts := 0) rfl ⟨rfl, by decide⟩ rfl) (t := 0) (q := .start 0) (p := .newBuf 0) rfl rfl (by simp) (by simp)
  have r := r.go (.newBuf (t := 0) false 2 rfl) (t := 0) (q := .newBuf 0) (p := .turnOn 0) rfl rfl (by simp) (by simp)
  have r := r.go (.turnOn (t := 0) (ts := 1) rfl ⟨rfl, by decide⟩) (t := 0) (q := .turnOn 0) (p := .crit 0) rfl rfl (by simp) (by simp)
  have r := r.go (.unlockM (t := 0) rfl) (t := 0) (q := .crit 0) (p := .idle) rfl rfl (by simp) (by simp)
  have r := r.go (.lockM (t := 1) rfl rfl) (t := 1) (q := .idle) (p := .crit 0) rfl rfl (by simp) (by simp)
  have r := r.register (t := 1) rfl rfl
  have r := r.go (.unlockM (t := 1) rfl) (t := 1) (q := .crit 0) (p := .idle) rfl rfl (by simp) (by simp)
  have r := r.go (.logOn (t := 1) (ts := 1) rfl ⟨rfl, by decide⟩ (by decide)) (t := 1) (q := .idle) (p := .tryLock) rfl rfl (by simp) (by simp)
  have r := r.step (.tryOk (t := 1) (ts := 0) rfl ⟨rfl, by decide⟩ rfl rfl)
  have r := r.go (.noChunk (t := 1) rfl rfl rfl) (t := 1) (q := .locked) (p := .check) rfl rfl (by simp) (by simp)
  have r := r.go (.checkOn (t := 1) (ts := 1) rfl ⟨rfl, by decide⟩ (by decide)) (t := 1) (q := .check) (p := .replace) rfl rfl (by simp) (by simp)
  have r := r.go (.replaceNone (t := 1) rfl rfl) (t := 1) (q := .replace) (p := .again) rfl rfl (by simp) (by simp)
  have r := r.go (.againOn (t := 1) (ts := 1) rfl ⟨rfl, by decide⟩ (by decide)) (t := 1) (q := .again) (p := .readBuf) rfl rfl (by simp) (by simp)
  have r := r.go (.bufSome (t := 1) rfl rfl) (t := 1) (q := .readBuf) (p := .getChunk 0) rfl rfl (by simp) (by simp)
  have r := r.go (.fresh (t := 1) (h := 0) rfl (show 0 < 2 by decide)) (t := 1) (q := .getChunk 0) (p := .reset (0, 0)) rfl rfl (by simp) (by simp)
  have r := r.go (.reset (t := 1) rfl) (t := 1) (q := .reset (0, 0)) (p := .setChunk (0, 0)) rfl rfl (by simp) (by simp)
  have r := r.go (.setChunk (t := 1) rfl) (t := 1) (q := .setChunk (0, 0)) (p := .write) rfl rfl (by simp) (by simp)
  have r := r.go (.lockM (t := 0) rfl rfl) (t := 0) (q := .idle) (p := .crit 0) rfl rfl (by simp) (by simp)
  have r := r.go (.stop (t := 0) (d := 0) rfl) (t := 0) (q := .crit 0) (p := .exchange false 0) rfl rfl (by simp) (by simp)
  have r := r.go (.exchangeOn (t := 0) (ts := 1) rfl ⟨rfl, by decide +kernel⟩ rfl (by decide +kernel)) (t := 0) (q := .exchange false 0) (p := .evict false 0) rfl rfl (by simp) (by simp)
  refine ⟨_, _, r, rfl, rfl, rfl, rfl, rfl, rfl, rfl, rfl, rfl, ?_, ?_⟩
  all_goals decide +kernel

/-- There thread 0 has to wait: every thread that is left has its lock. -/
example : ∃ w : St, LReachable w ∧ w.pc 0 = .evict false 0 ∧ w.pend 1 = true ∧ w.pc 1 ≠ .tryLock ∧ slave (w.pc 1) = true := by
  obtain ⟨w, m, r, -, h0, h1, -, h2, -⟩ := exWord
  exact ⟨w, r, h0, h2, by rw [h1]; simp, by rw [h1]; rfl⟩

/-- Thread 1 stores the event and is about to unlock; the word it can read is `SlaveLocked`. -/
example : ∃ (w : St) (m : Msg Loc Nat), LReachable w ∧ w.pc 1 = .unlock ∧ w.mem.readable 1 (lockAt 1) 1 m ∧ m.val = 1 := by
  obtain ⟨w, m, r, -, h0, h1, hc, h2, h3, h4, h5, h8, h6, h7⟩ := exWord
  have r := r.go (.write (t := 1) (c := (0, 0)) h1 hc) (t := 1) h1 (by simp [St.goto, setf]; rfl) (by simp) (by simp)
  exact ⟨_, m, r, by simp [St.goto, setf, St.with], ⟨by simpa [St.goto, St.with, Mem.write, Mem.read] using h3,
    by simp [St.goto, St.with, Mem.write, Mem.read, setf, View.tick, h7]⟩, h4⟩

/-- And once thread 1 has stored the event and unlocked, thread 0 takes the lock with a compare-exchange that reads
that unlock, and clears the chunk of thread 1: it knows the event. -/
example : ∃ w : St, LReachable w ∧ w.pc 0 = .evClear false 0 1 ∧ w.tc 1 = some (0, 0) ∧ w.mem.wr (.cell 0 0) 1 ≠ 0 ∧
    w.mem.wr (.cell 0 0) 1 ≤ (w.mem.view 0).clk 1 := by
  obtain ⟨w, m, r, -, h0, h1, hc, h2, h3, h4, h5, h8, h6, h7⟩ := exWord
  have r := r.go (.write (t := 1) (c := (0, 0)) h1 hc) (t := 1) h1 (by simp [St.goto, setf]; rfl) (by simp) (by simp)
  have r := r.step (.unlock (t := 1) (ts := 2) (by simp [St.goto, setf, St.with])
    ⟨by simpa [St.goto, St.with, Mem.write, Mem.read] using h5,
      by simp [St.goto, St.with, Mem.write, Mem.read, setf, View.tick, h7]⟩)
  have r := r.step (.evLock (t := 0) (k := false) (d := 0) (u := 1) (ts := 2) (by simp [St.goto, setf, St.with, h0]) h2
    ⟨by simp [St.goto, St.with, Mem.storeRel, Mem.add]; rfl,
      by simp [St.goto, St.with, Mem.write, Mem.read, Mem.storeRel, Mem.add, setf, h6]⟩
    (by simpa [St.goto, St.with, Mem.write, Mem.read, Mem.storeRel, Mem.add] using h8) rfl)
  refine ⟨_, r, ?_, hc, ?_, ?_⟩
  · simp [St.goto, setf]
  · simp [St.goto, St.with, Mem.write, Mem.read, Mem.storeRel, Mem.rmwAcqRel, Mem.add, setf, View.tick, View.see, View.join]
  · simp [St.goto, St.with, Mem.write, Mem.read, Mem.storeRel, Mem.rmwAcqRel, Mem.add, setf, View.tick, View.see, View.join]
    omega

end Phosphor.TLog.W
