import Verif.Props.ChunksWeak
import Verif.Proof.TraceLogWeakWf
import Mathlib.Data.List.Perm.Subperm
import Mathlib.Data.List.Nodup
/-
C106: progress of the trace log under the memory orders of the source. Every step is one access to a
release/acquire memory and the loads may return old values; still nobody gets stuck: a logging call
ends after at most thirteen steps of its thread, and it never has to wait as long as the rings have
at least as many chunks as there are threads; the eviction in `stop` waits only for such calls.
-/
namespace Phosphor.TLog.W
open Phosphor.Weak

/-- In `logEvent` past its first look at `enabled`. Code: trace_log.cc:124-148, trace_log.cc:256-309. -/
def Pc.logging : Pc → Bool
  | .tryLock | .locked | .check | .replace | .giveBack _ | .clear | .again | .readBuf | .getChunk _
  | .reset _ | .setChunk _ | .write | .unlock => true
  | _ => false

/-- Thread `t` is in a ring buffer that has handed out all its chunks and has none back: it is in the
loop of `getChunk`. Code: trace_buffer.cc:205-222. -/
def Starved (w : St) (t : Nat) : Prop :=
  ∃ h, w.pc t = .getChunk h ∧ (w.bufs h).ring = true ∧ (w.bufs h).size ≤ (w.bufs h).next ∧ (w.bufs h).bag = []

/-- C106: a thread in any call can go on, unless it is in the loop of `getChunk` of a ring with no
chunk, or it is evicting the threads and each one that is left to evict is in a logging call and has
its chunk lock. -/
theorem C106_moves {w : St} (h : Reachable true w) {t : Nat} (ht : w.pc t ≠ .idle) :
    (∃ w', Step true w w' ∧ w'.pc t ≠ w.pc t) ∨ Starved w t ∨
      ∃ k d, w.pc t = .evict k d ∧ ∀ u, w.pend u = true → w.lk u = some u ∧ (w.pc u).logging = true := by
  obtain ⟨g, hg⟩ := inv_reachable h
  have wf := h.wfs.mem
  have out : ∀ {w' : St} {p : Pc}, Step true w w' → w'.pc t = p → p ≠ w.pc t →
      (∃ w', Step true w w' ∧ w'.pc t ≠ w.pc t) := fun a b c => ⟨_, a, b ▸ c⟩
  have out2 : ∀ {w' : St}, Step true w w' → w'.pc t ≠ w.pc t →
      (∃ w', Step true w w' ∧ w'.pc t ≠ w.pc t) := fun a b => ⟨_, a, b⟩
  have hh := hg.pcs t
  cases hq : w.pc t with
  | idle => exact absurd hq ht
  | tryLock => exact .inl (hq ▸ out (.tryFail hq) (setf_self _ _ _) (by rw [hq]; simp))
  | locked =>
    cases hr : w.reg t with
    | false => exact .inl (hq ▸ out (.notReg hq hr) (setf_self _ _ _) (by rw [hq]; simp))
    | true =>
      cases hc : w.tc t with
      | none => exact .inl (hq ▸ out (.noChunk hq hr hc) (setf_self _ _ _) (by rw [hq]; simp))
      | some c => exact .inl (hq ▸ out (.room hq hr hc) (setf_self _ _ _) (by rw [hq]; simp))
  | check =>
    obtain ⟨ts, m, hr⟩ := wf.readable t .en
    by_cases e : m.val = 0
    · exact .inl (hq ▸ out (.checkOff hq hr e) (setf_self _ _ _) (by rw [hq]; simp))
    · exact .inl (hq ▸ out (.checkOn hq hr e) (setf_self _ _ _) (by rw [hq]; simp))
  | replace =>
    cases hc : w.tc t with
    | none => exact .inl (hq ▸ out (.replaceNone hq hc) (setf_self _ _ _) (by rw [hq]; simp))
    | some c => exact .inl (hq ▸ out (.replaceSome hq hc) (setf_self _ _ _) (by rw [hq]; simp))
  | giveBack c =>
    have hb := (hg.heldOk t c (by rw [held_at, hq]; rw [hq] at hh; exact hh.2)).1
    exact .inl (hq ▸ out2 (.giveBack hq hb) (by simp [St.goto, setf, hq]))
  | clear => exact .inl (hq ▸ out2 (.clear hq) (by simp [St.goto, setf, hq]))
  | again =>
    obtain ⟨ts, m, hr⟩ := wf.readable t .en
    by_cases e : m.val = 0
    · exact .inl (hq ▸ out (.againOff hq hr e) (setf_self _ _ _) (by rw [hq]; simp))
    · exact .inl (hq ▸ out (.againOn hq hr e) (setf_self _ _ _) (by rw [hq]; simp))
  | readBuf =>
    cases hb : w.buf with
    | none => exact .inl (hq ▸ out (.bufNone hq hb) (setf_self _ _ _) (by rw [hq]; simp))
    | some b => exact .inl (hq ▸ out (.bufSome hq hb) (setf_self _ _ _) (by rw [hq]; simp))
  | getChunk b =>
    cases hr : (w.bufs b).ring with
    | false => exact .inl (hq ▸ out (.exhausted hq hr) (setf_self _ _ _) (by rw [hq]; simp))
    | true =>
      by_cases hn : (w.bufs b).next < (w.bufs b).size
      · exact .inl (hq ▸ out2 (.fresh hq hn) (by simp [St.goto, setf, hq]))
      · cases hb : (w.bufs b).bag with
        | nil => exact .inr (.inl ⟨b, hq, hr, by omega, hb⟩)
        | cons x l =>
          exact .inl (hq ▸ out2 (.reuse (b1 := []) (c := x.1) (v := x.2) (b2 := l) hq hr hb) (by simp [St.goto, setf, hq]))
  | reset c => exact .inl (hq ▸ out (.reset hq) (setf_self _ _ _) (by rw [hq]; simp))
  | setChunk c => exact .inl (hq ▸ out2 (.setChunk hq) (by simp [St.goto, setf, hq]))
  | write =>
    rw [hq] at hh
    obtain ⟨c, hc⟩ := Option.ne_none_iff_exists'.1 hh.2
    exact .inl (hq ▸ out (.write hq hc) (setf_self _ _ _) (by rw [hq]; simp))
  | unlock => exact .inl (hq ▸ out2 (.unlock hq) (by simp [St.goto, setf, hq]))
  | crit d =>
    cases d with
    | zero => exact .inl (hq ▸ out2 (.unlockM hq) (by simp [St.goto, setf, hq]))
    | succ d => exact .inl (hq ▸ out (.resume hq) (setf_self _ _ _) (by rw [hq]; simp))
  | exchange k d =>
    obtain ⟨ts, m, hr, hn⟩ := wf.last t .en
    by_cases e : m.val = 0
    · exact .inl (hq ▸ out (.exchangeOff hq hr hn e) (setf_self _ _ _) (by rw [hq]; cases k <;> simp))
    · exact .inl (hq ▸ out2 (.exchangeOn hq hr hn e) (by simp [St.goto, setf, hq]))
  | evict k d =>
    by_cases hp : ∃ u, w.pend u = true ∧ w.lk u = none
    · obtain ⟨u, h1, h2⟩ := hp
      exact .inl (hq ▸ out2 (.evLock hq h1 h2) (by simp [St.goto, setf, hq]))
    · refine .inr (.inr ⟨k, d, rfl, fun u hu => ?_⟩)
      cases hk : w.lk u with
      | none => exact absurd ⟨u, hu, hk⟩ hp
      | some s =>
        rcases hg.lkpc u s hk with ⟨e, hs⟩ | ⟨k', d', hs⟩
        · subst e
          refine ⟨rfl, ?_⟩
          cases hx : w.pc s <;> rw [hx] at hs <;> first | (cases hs; done) | rfl
        · exfalso
          rw [hq] at hh
          have hm : w.mutex = some s := by
            have := hg.pcs s
            rcases hs with e | e <;> rw [e] at this <;> exact this.1
          have : s = t := by have := hh.1; rw [hm] at this; injection this
          subst this
          rcases hs with e | e <;> rw [hq] at e <;> cases e
  | evClear k d u => exact .inl (hq ▸ out2 (.evClear hq) (by simp [St.goto, setf, hq]))
  | evUnlock k d u => exact .inl (hq ▸ out2 (.evUnlock hq) (by simp [St.goto, setf, hq]))
  | start d =>
    obtain ⟨ts, m, hr⟩ := wf.readable t .en
    by_cases e : m.val = 0
    · exact .inl (hq ▸ out (.startOff hq hr e) (setf_self _ _ _) (by rw [hq]; simp))
    · exact .inl (hq ▸ out (.startOn hq hr e) (setf_self _ _ _) (by rw [hq]; simp))
  | newBuf d => exact .inl (hq ▸ out2 (.newBuf false 0 hq) (by simp [St.goto, setf, hq]))
  | turnOn d =>
    obtain ⟨ts, hf⟩ := wf.free t .en
    exact .inl (hq ▸ out (.turnOn hq hf) (setf_self _ _ _) (by rw [hq]; simp))
  | getBuf d =>
    obtain ⟨ts, m, hr⟩ := wf.readable t .en
    by_cases e : m.val = 0
    · exact .inl (hq ▸ out (.getBufOff hq hr e) (setf_self _ _ _) (by rw [hq]; simp))
    · exact .inl (hq ▸ out (.getBufOn hq hr e) (setf_self _ _ _) (by rw [hq]; simp))
  | take d => exact .inl (hq ▸ out2 (.take hq) (by simp [St.goto, setf, hq]))
  | dTest d =>
    cases hc : w.tc t with
    | none => exact .inl (hq ▸ out (.dNone hq hc) (setf_self _ _ _) (by rw [hq]; simp))
    | some c => exact .inl (hq ▸ out (.dSome hq hc) (setf_self _ _ _) (by rw [hq]; simp))
  | dReturn c d =>
    cases hb : w.buf with
    | none => exact .inl (hq ▸ out (.dReturnNone hq hb) (setf_self _ _ _) (by rw [hq]; simp))
    | some b => exact .inl (hq ▸ out2 (.dReturn hq hb) (by simp [St.goto, setf, hq]))
  | dClear d => exact .inl (hq ▸ out2 (.dClear hq) (by simp [St.goto, setf, hq]))
  | dErase d => exact .inl (hq ▸ out2 (.dErase hq) (by simp [St.goto, setf, hq]))

/-- The number of steps a logging call can still take. -/
def Pc.left : Pc → Nat
  | .tryLock => 13
  | .locked => 12
  | .check => 11
  | .replace => 10
  | .giveBack _ => 9
  | .clear => 8
  | .again => 7
  | .readBuf => 6
  | .getChunk _ => 5
  | .reset _ => 4
  | .setChunk _ => 3
  | .write => 2
  | .unlock => 1
  | _ => 0

theorem step_left {w w' : St} (hs : Step true w w') {t : Nat} (hl : (w.pc t).logging = true) :
    w'.pc t = w.pc t ∨ w'.pc t = .idle ∨ ((w'.pc t).logging = true ∧ (w'.pc t).left < (w.pc t).left) := by
  have key : ∀ {u : Nat} {p : Pc}, w'.pc = setf w.pc u p →
      (u = t → p = .idle ∨ (p.logging = true ∧ p.left < (w.pc t).left)) →
      w'.pc t = w.pc t ∨ w'.pc t = .idle ∨ ((w'.pc t).logging = true ∧ (w'.pc t).left < (w.pc t).left) := by
    intro u p e hp
    by_cases hu : u = t
    · subst hu; rw [e, setf_self]; exact .inr (hp rfl)
    · rw [e, setf_ne _ _ (Ne.symm hu)]; exact .inl rfl
  cases hs with
  | other | extLoad | extStore | ownRead | ownGive | ownFree => exact .inl rfl
  | tryFail hq | logOff hq | unlock hq => exact key rfl fun e => .inl rfl
  | @exchangeOff _ k _ _ _ hq =>
    refine key rfl fun e => ?_
    subst e; rw [hq] at hl; cases hl
  | newBuf _ _ hq =>
    refine key (by simp [St.goto]; rfl) fun e => ?_
    subst e; rw [hq] at hl; cases hl
  | _ =>
    refine key rfl fun e => ?_
    subst e
    simp_all [Pc.logging, Pc.left]

/-- An execution from `w` in which thread `t` makes `n` moves and has not got back to its own code. -/
inductive Busy (t : Nat) : Nat → St → St → Prop
  | refl {w} : Busy t 0 w w
  | wait {n w w' w''} : Busy t n w w' → Step true w' w'' → w''.pc t = w'.pc t → Busy t n w w''
  | move {n w w' w''} : Busy t n w w' → Step true w' w'' → w''.pc t ≠ w'.pc t → w''.pc t ≠ .idle →
      Busy t (n + 1) w w''

/-- C106: a logging call is over after at most thirteen moves of its thread: it makes no more than
twelve without being over. -/
theorem C106_short {w w' : St} {t n : Nat} (hl : (w.pc t).logging = true) (hb : Busy t n w w') : n ≤ 12 := by
  have key : (w'.pc t).logging = true ∧ n + (w'.pc t).left ≤ (w.pc t).left := by
    induction hb with
    | refl => exact ⟨hl, by omega⟩
    | wait _ _ e ih => rw [e]; exact ih hl
    | move _ hs e hi ih =>
      have ih := ih hl
      rcases step_left hs ih.1 with x | x | ⟨x1, x2⟩
      · exact absurd x e
      · exact absurd x hi
      · exact ⟨x1, by omega⟩
  have h1 : ∀ p : Pc, p.logging = true → 1 ≤ p.left ∧ p.left ≤ 13 := by
    intro p hp; cases p <;> first | (cases hp; done) | exact ⟨by simp [Pc.left], by simp [Pc.left]⟩
  have := h1 _ key.1
  have := h1 _ hl
  omega

/-! ### Rings with enough chunks -/

/-- At most `n` threads are registered, and rings have at least `n` chunks. -/
structure Fits (n : Nat) (w : St) : Prop where
  few : ∀ t, w.reg t = true → t < n
  room : ∀ b, (w.bufs b).ring = true → n ≤ (w.bufs b).size

/-- An execution during which the threads fit. -/
inductive Fitting (n : Nat) : St → Prop
  | init : Fitting n St.init
  | step {w w'} : Fitting n w → Step true w w' → Fits n w' → Fitting n w'

theorem Fitting.reachable {n : Nat} {w : St} (h : Fitting n w) : Reachable true w := by
  induction h with
  | init => exact .init
  | step _ hs _ ih => exact ih.step hs

theorem Fitting.fits {n : Nat} {w : St} (h : Fitting n w) : Fits n w := by
  cases h with
  | init => exact ⟨fun _ h => (by cases h), fun _ h => (by cases h)⟩
  | step _ _ hf => exact hf

/-- Thread `u` has been evicted in the stop that is running or was the last. -/
def Gone (w : St) (u : Nat) : Prop :=
  w.off ∧ held w u = none ∧ (w.pend u = false ∨ ∃ s k d, w.pc s = .evUnlock k d u)

/-- Chunk `i` of buffer `b` has been handed out and not come back. -/
def IsOut (w : St) (b i : Nat) : Prop := i < (w.bufs b).next ∧ ∀ v, ((b, i), v) ∉ (w.bufs b).bag

/-- `lst i` is the thread that was given chunk `i` last: it has it, or has been evicted. -/
structure Room (n : Nat) (w : St) (lst : Nat → Nat) : Prop where
  out : ∀ b, w.buf = some b → (w.bufs b).ring = true → ∀ i, IsOut w b i →
    lst i < n ∧ (held w (lst i) = some (b, i) ∨ Gone w (lst i))
  inj : ∀ b, w.buf = some b → (w.bufs b).ring = true → ∀ i j, IsOut w b i → IsOut w b j → lst i = lst j → i = j
  new : ∀ t d, w.pc t = .turnOn d → ∀ b, w.buf = some b → (w.bufs b).next = 0

theorem Room.same {n : Nat} {w w' : St} {lst : Nat → Nat} (h : Room n w lst) (hb : w'.buf = w.buf)
    (hbs : w'.bufs = w.bufs) (hh : ∀ u, held w' u = held w u) (hg : ∀ u, Gone w u → Gone w' u)
    (hn : ∀ t d, w'.pc t = .turnOn d → w.pc t = .turnOn d) : Room n w' lst where
  out b h1 h2 i hi := by
    rw [hb] at h1; rw [hbs] at h2
    have hi : IsOut w b i := by unfold IsOut at hi ⊢; rw [hbs] at hi; exact hi
    obtain ⟨x, y⟩ := h.out b h1 h2 i hi
    refine ⟨x, ?_⟩
    rcases y with y | y
    · exact .inl (by rw [hh]; exact y)
    · exact .inr (hg _ y)
  inj b h1 h2 i j hi hj e := by
    rw [hb] at h1; rw [hbs] at h2
    refine h.inj b h1 h2 i j ?_ ?_ e
    · unfold IsOut at hi ⊢; rw [hbs] at hi; exact hi
    · unfold IsOut at hj ⊢; rw [hbs] at hj; exact hj
  new t d ht b h1 := by rw [hb] at h1; rw [hbs]; exact h.new t d (hn t d ht) b h1

theorem off_hist {w w' : St} (e : w'.mem.hist .en = w.mem.hist .en) (h : w.off) : w'.off := by
  unfold St.off at h ⊢; rw [e]; exact h

theorem held_same {w w' : St} {t : Nat} {p : Pc} (h1 : w'.pc = setf w.pc t p)
    (h2 : ∀ y, y ≠ t → w'.tc y = w.tc y) (H : chunkAt p (w'.tc t) = chunkAt (w.pc t) (w.tc t)) (u : Nat) :
    held w' u = held w u := by
  rw [held_at, held_at, h1]
  by_cases e : u = t
  · subst e; rw [setf_self]; exact H
  · rw [setf_ne _ _ e, h2 u e]

theorem gone_move {w w' : St} {t : Nat} {p : Pc} (h1 : w'.pc = setf w.pc t p) (hp : w'.pend = w.pend)
    (ho : w.off → w'.off) (hh : ∀ u, held w' u = held w u) (he : ∀ k d u, w.pc t ≠ .evUnlock k d u) (u : Nat)
    (h : Gone w u) : Gone w' u := by
  obtain ⟨a, b, c⟩ := h
  refine ⟨ho a, by rw [hh]; exact b, ?_⟩
  rcases c with c | ⟨s, k, d, c⟩
  · exact .inl (by rw [hp]; exact c)
  · refine .inr ⟨s, k, d, ?_⟩
    rw [h1, setf_ne _ _ (fun e => by subst e; exact he k d u c)]; exact c

/-- Thread `t` moves on to `p`, and keeps what it has. -/
theorem Room.move {n : Nat} {w w' : St} {lst : Nat → Nat} (h : Room n w lst) {t : Nat} {p : Pc}
    (h1 : w'.pc = setf w.pc t p) (h2 : ∀ y, y ≠ t → w'.tc y = w.tc y) (hb : w'.buf = w.buf)
    (hbs : w'.bufs = w.bufs) (hp : w'.pend = w.pend) (ho : w.off → w'.off)
    (H : chunkAt p (w'.tc t) = chunkAt (w.pc t) (w.tc t)) (he : ∀ k d u, w.pc t ≠ .evUnlock k d u)
    (hn : ∀ d, p ≠ .turnOn d) : Room n w' lst := by
  refine h.same hb hbs (held_same h1 h2 H) (gone_move h1 hp ho (held_same h1 h2 H) he) (fun s d hs => ?_)
  rw [h1] at hs
  by_cases e : s = t
  · subst e; rw [setf_self] at hs; exact absurd hs (hn d)
  · rw [setf_ne _ _ e] at hs; exact hs

/-- No chunk is out. -/
theorem Room.empty {n : Nat} {w : St} {lst : Nat → Nat} (h : ∀ b, w.buf = some b → (w.bufs b).next = 0) : Room n w lst where
  out b h1 _ i hi := by have := hi.1; rw [h b h1] at this; omega
  inj b h1 _ i _ hi := by have := hi.1; rw [h b h1] at this; omega
  new _ _ _ b h1 := h b h1

/-- The holder of a chunk that is handed to `t`. -/
theorem Room.get {n : Nat} {w w' : St} {lst : Nat → Nat} (h : Room n w lst) {t b i : Nat} (hb : w.buf = some b)
    (hb' : w'.buf = w.buf) (hr : (w'.bufs b).ring = (w.bufs b).ring)
    (hpc : w'.pc = setf w.pc t (.reset (b, i))) (htc : w'.tc = w.tc) (hpd : w'.pend = w.pend)
    (hen : w.off → w'.off) (hq : w.pc t = .getChunk b) (hnone : w.tc t = none) (ht : t < n)
    (hng : ¬ Gone w t) (hnew : ∀ s d, w.pc s ≠ .turnOn d)
    (hout : ∀ j, IsOut w' b j → j = i ∨ IsOut w b j) : ∃ lst', Room n w' lst' := by
  have hother : ∀ u, u ≠ t → held w' u = held w u := by
    intro u hu; rw [held_at, held_at, hpc, htc, setf_ne _ _ hu]
  have hnt : held w t = none := by rw [held_at, hq]; exact hnone
  have key : ∀ j, IsOut w b j → (w.bufs b).ring = true → lst j ≠ t := by
    intro j hj hr e
    rcases (h.out b hb hr j hj).2 with x | x
    · rw [e, hnt] at x; cases x
    · exact hng (e ▸ x)
  have hgone : ∀ u, u ≠ t → Gone w u → Gone w' u := by
    rintro u hu ⟨a, c, d⟩
    refine ⟨hen a, by rw [hother u hu]; exact c, ?_⟩
    rcases d with d | ⟨s, k, x, d⟩
    · exact .inl (by rw [hpd]; exact d)
    · refine .inr ⟨s, k, x, ?_⟩
      rw [hpc, setf_ne _ _ (fun e => by subst e; rw [hq] at d; cases d)]; exact d
  refine ⟨setf lst i t, ⟨fun b' h1 h2 j hj => ?_, fun b' h1 h2 j j' hj hj' e => ?_, fun s d hs => ?_⟩⟩
  · rw [hb', hb] at h1; cases h1
    rw [hr] at h2
    by_cases e : j = i
    · subst e
      rw [setf_self]
      exact ⟨ht, .inl (by rw [held_at, hpc, setf_self]; rfl)⟩
    · rw [setf_ne _ _ e]
      have hj := (hout j hj).resolve_left e
      obtain ⟨x, y⟩ := h.out b hb h2 j hj
      have hne := key j hj h2
      refine ⟨x, ?_⟩
      rcases y with y | y
      · exact .inl (by rw [hother _ hne]; exact y)
      · exact .inr (hgone _ hne y)
  · rw [hb', hb] at h1; cases h1
    rw [hr] at h2
    by_cases ej : j = i <;> by_cases ej' : j' = i
    · rw [ej, ej']
    · rw [ej, setf_self, setf_ne _ _ ej'] at e
      exact absurd e.symm (key j' ((hout j' hj').resolve_left ej') h2)
    · rw [ej', setf_self, setf_ne _ _ ej] at e
      exact absurd e (key j ((hout j hj).resolve_left ej) h2)
    · rw [setf_ne _ _ ej, setf_ne _ _ ej'] at e
      exact h.inj b hb h2 j j' ((hout j hj).resolve_left ej) ((hout j' hj').resolve_left ej') e
  · rw [hpc] at hs
    by_cases e : s = t
    · subst e; rw [setf_self] at hs; cases hs
    · rw [setf_ne _ _ e] at hs; exact absurd hs (hnew s d)

/-- Thread `t` gives its chunk back. -/
theorem Room.give {n : Nat} {w w' : St} {lst : Nat → Nat} {g : Ghost} (h : Room n w lst) (hg : Inv w g) {t b : Nat} {p : Pc} {c : Chunk}
    (hb : w.buf = some b) (hb' : w'.buf = w.buf) (hbs : w'.bufs = w.giveBack t b c)
    (hpc : w'.pc = setf w.pc t p) (htc : w'.tc = w.tc) (hpd : w'.pend = w.pend) (ho : w.off → w'.off)
    (hc : held w t = some c) (hq : ∀ k d u, w.pc t ≠ .evUnlock k d u) (hp : ∀ d, p ≠ .turnOn d) : Room n w' lst := by
  have hcb : c.1 = b := by
    have := (hg.heldOk t c hc).1
    rw [hb] at this; exact (Option.some.inj this).symm
  have hnext : (w'.bufs b).next = (w.bufs b).next := by rw [hbs]; unfold St.giveBack; rw [setf_self]
  have hring : (w'.bufs b).ring = (w.bufs b).ring := by rw [hbs]; unfold St.giveBack; rw [setf_self]
  have hout : ∀ i, (w.bufs b).ring = true → IsOut w' b i → IsOut w b i ∧ (b, i) ≠ c := by
    intro i hr ⟨x, y⟩
    have hbag : (w'.bufs b).bag = (c, w.mem.view t) :: (w.bufs b).bag := by
      rw [hbs]; unfold St.giveBack; rw [setf_self]; simp [hr]
    refine ⟨⟨hnext ▸ x, fun v hv => y v (by rw [hbag]; exact List.mem_cons_of_mem _ hv)⟩, fun e => ?_⟩
    exact y (w.mem.view t) (by rw [hbag, e]; exact List.mem_cons_self)
  have hother : ∀ u, u ≠ t → held w' u = held w u := by
    intro u hu; rw [held_at, held_at, hpc, htc, setf_ne _ _ hu]
  refine ⟨fun b' h1 h2 i hi => ?_, fun b' h1 h2 i j hi hj e => ?_, fun s d hs b' h1 => ?_⟩
  · rw [hb', hb] at h1; cases h1
    rw [hring] at h2
    obtain ⟨hi, hne⟩ := hout i h2 hi
    obtain ⟨x, y⟩ := h.out b hb h2 i hi
    refine ⟨x, ?_⟩
    have hl : lst i ≠ t := by
      intro e
      rcases y with y | y
      · rw [e, hc] at y; exact hne (Option.some.inj y).symm
      · have := y.2.1; rw [e, hc] at this; cases this
    rcases y with y | ⟨y1, y2, y3⟩
    · exact .inl (by rw [hother _ hl]; exact y)
    · refine .inr ⟨ho y1, by rw [hother _ hl]; exact y2, ?_⟩
      rcases y3 with y3 | ⟨s, k, d, y3⟩
      · exact .inl (by rw [hpd]; exact y3)
      · exact .inr ⟨s, k, d, by rw [hpc, setf_ne _ _ (fun e => hq k d _ (e ▸ y3))]; exact y3⟩
  · rw [hb', hb] at h1; cases h1
    rw [hring] at h2
    exact h.inj b hb h2 i j (hout i h2 hi).1 (hout j h2 hj).1 e
  · rw [hb', hb] at h1; cases h1
    rw [hnext]
    rw [hpc] at hs
    by_cases e : s = t
    · subst e; rw [setf_self] at hs; exact absurd hs (hp d)
    · rw [setf_ne _ _ e] at hs; exact h.new s d hs b hb

theorem live_not_gone {w : St} {g : Ghost} (hg : Inv w g) {t : Nat} (hl : live w g t) (hk : w.lk t = some t)
    (hq : inM (w.pc t) = false) : ¬ Gone w t := by
  rintro ⟨a, -, c⟩
  have hoff := hg.off a
  rcases hl.2 with x | x
  · rw [hoff] at x; cases x
  · rcases c with c | ⟨s, k, d, c⟩
    · rw [c] at x; cases x
    · have h1 := hg.here (μ := w.mem) (w := w) c
      have h2 : w.lk t = some s := h1.2.2.2.1
      rw [hk] at h2
      have : t = s := Option.some.inj h2
      subst this
      rw [c] at hq; cases hq

theorem live_not_new {w : St} {g : Ghost} (hg : Inv w g) {t : Nat} (hl : live w g t) (s d : Nat) : w.pc s ≠ .turnOn d := by
  intro c
  have h1 : M w s ∧ d = 0 ∧ g.on = false ∧ w.buf ≠ none := hg.here (μ := w.mem) (w := w) c
  exact not_live h1.2.2.1 h1.1.2 t hl

theorem newest {w : St} {g : Ghost} (hg : Inv w g) {t : Nat} (hm : w.mutex = some t) {ts : Nat} {m : Msg Loc Nat}
    (hr : w.mem.readable t .en ts m) : ts = g.top := by
  have h1 := hg.enKnow
  rw [mv_some hm] at h1
  exact Nat.le_antisymm (hg.enMax _ _ hr.1) (Nat.le_trans h1 hr.2)

theorem room_step {n : Nat} {w w' : St} {lst : Nat → Nat} (hr : Reachable true w) (hf : Fits n w) (h : Room n w lst)
    (hs : Step true w w') : ∃ lst', Room n w' lst' := by
  obtain ⟨g, hg⟩ := inv_reachable hr
  cases hs with
  | other | extLoad | ownRead | ownGive | ownFree =>
    exact ⟨lst, h.same rfl rfl (fun _ => rfl) (fun u x => ⟨off_hist rfl x.1, x.2.1, x.2.2⟩) (fun _ _ x => x)⟩
  | extStore =>
    refine ⟨lst, h.same rfl rfl (fun _ => rfl) (fun u x => ⟨off_hist ?_ x.1, x.2.1, x.2.2⟩) (fun _ _ x => x)⟩
    funext i; simp [Mem.storeRel, Mem.add]
  | @fresh t b hq hlt =>
    have hL : L w g t ∧ w.tc t = none ∧ w.buf = some b := hg.here (μ := w.mem) (w := w) hq
    refine h.get (t := t) (b := b) (i := (w.bufs b).next) hL.2.2 rfl (by simp [setf]) (by simp [St.goto]) rfl rfl (off_hist rfl) hq hL.2.1
      (hf.few t hL.1.2.1.1) (live_not_gone hg hL.1.2.1 hL.1.1 (by rw [hq]; rfl)) (live_not_new hg hL.1.2.1) (fun j hj => ?_)
    have h1 : j < (w.bufs b).next + 1 ∧ ∀ v, ((b, j), v) ∉ (w.bufs b).bag := by simpa [IsOut, setf] using hj
    by_cases e : j = (w.bufs b).next
    · exact .inl e
    · exact .inr ⟨by omega, h1.2⟩
  | @reuse t b b1 b2 c v hq hring hbag =>
    have hL : L w g t ∧ w.tc t = none ∧ w.buf = some b := hg.here (μ := w.mem) (w := w) hq
    have hc := (hg.bagOk b hL.2.2 c v (by rw [hbag]; simp)).1
    obtain ⟨c1, c2⟩ := c
    dsimp only at hc
    subst hc
    refine h.get (t := t) (b := c1) (i := c2) hL.2.2 rfl (by simp [setf]) (by simp [St.goto]) rfl rfl (off_hist rfl) hq hL.2.1
      (hf.few t hL.1.2.1.1) (live_not_gone hg hL.1.2.1 hL.1.1 (by rw [hq]; rfl)) (live_not_new hg hL.1.2.1) (fun j hj => ?_)
    have h1 : j < (w.bufs c1).next ∧ ∀ v, ((c1, j), v) ∉ b1 ++ b2 := by simpa [IsOut, setf] using hj
    by_cases e : j = c2
    · exact .inl e
    · refine .inr ⟨h1.1, fun v' hv => ?_⟩
      rw [hbag] at hv
      rcases List.mem_append.1 hv with x | x
      · exact h1.2 v' (List.mem_append.2 (.inl x))
      · rcases List.mem_cons.1 x with x | x
        · cases x; exact e rfl
        · exact h1.2 v' (List.mem_append.2 (.inr x))
  | @giveBack t c b hq hb =>
    have hL : L w g t ∧ w.tc t = some c := hg.here (μ := w.mem) (w := w) hq
    exact ⟨lst, h.give hg hb rfl rfl rfl rfl rfl (off_hist rfl) (by rw [held_at, hq]; exact hL.2)
      (fun _ _ _ e => by rw [hq] at e; cases e) (fun _ e => by cases e)⟩
  | @dReturn t d c b hq hb =>
    have hL := hg.here (μ := w.mem) (w := w) hq
    exact ⟨lst, h.give hg hb rfl rfl rfl rfl rfl (off_hist rfl) (by rw [held_at, hq]; exact hL.2.2.2)
      (fun _ _ _ e => by rw [hq] at e; cases e) (fun _ e => by cases e)⟩
  | clear hq | setChunk hq | dClear hq =>
    exact ⟨lst, h.move rfl (fun y hy => setf_ne _ _ hy) rfl rfl rfl (off_hist rfl) (by simp [chunkAt, setf, hq])
      (fun _ _ _ e => by rw [hq] at e; cases e) (fun _ e => by cases e)⟩
  | @evClear t k d u hq =>
    have hP : w.mutex = some t ∧ g.on = false ∧ (d ≤ 1 ∧ (k = true → d = 0)) ∧ w.lk u = some t ∧ w.pend u = true :=
      hg.here (μ := w.mem) (w := w) hq
    have hoff : w.off := hg.isOff hP.2.1
    have hu : ∀ x, x ≠ u → held { w.goto t (.evUnlock k d u) (w.mem.write t (.tc u)) with tc := setf w.tc u none } x = held w x := by
      intro x hx
      rw [held_at, held_at]
      by_cases e : x = t
      · subst e; simp [St.goto, setf, hq, chunkAt, hx]
      · simp [St.goto, setf, e, hx]
    have hnu : held { w.goto t (.evUnlock k d u) (w.mem.write t (.tc u)) with tc := setf w.tc u none } u = none := by
      have hlk := hP.2.2.2.1
      have hno : ∀ p, w.pc u = p → slave p = true → False := by
        intro p hp hsl
        have h1 := hg.here (μ := w.mem) (w := w) hp
        have h2 : w.lk u = some u := by
          cases p <;> first | (cases hsl; done) | exact h1 | exact h1.1 | exact h1.1.1
        rw [hlk] at h2
        have : t = u := Option.some.inj h2
        subst this
        rw [hq] at hp; subst hp; cases hsl
      rw [held_at]
      by_cases e : u = t
      · subst e; simp [St.goto, setf, chunkAt]
      · simp only [St.goto, setf, if_neg e, if_true]
        cases hp : w.pc u <;> first | rfl | exact (hno _ hp rfl).elim
    have hpd : ∀ x, Gone w x → Gone { w.goto t (.evUnlock k d u) (w.mem.write t (.tc u)) with tc := setf w.tc u none } x := by
      rintro x ⟨a, b, c⟩
      refine ⟨off_hist rfl a, ?_, ?_⟩
      · by_cases e : x = u
        · rw [e]; exact hnu
        · exact (hu x e).trans b
      · rcases c with c | ⟨s, k', d', c⟩
        · exact .inl c
        · refine .inr ⟨s, k', d', ?_⟩
          by_cases e : s = t
          · subst e; rw [hq] at c; cases c
          · simpa [St.goto, setf, e] using c
    refine ⟨lst, ⟨fun b h1 h2 i hi => ?_, fun b h1 h2 i j hi hj e => h.inj b h1 h2 i j hi hj e, fun s x hs b h1 => ?_⟩⟩
    · obtain ⟨x, y⟩ := h.out b h1 h2 i hi
      refine ⟨x, ?_⟩
      by_cases e : lst i = u
      · exact .inr ⟨off_hist rfl hoff, by rw [e]; exact hnu, .inr ⟨t, k, d, by rw [e]; simp [St.goto, setf]⟩⟩
      · rcases y with y | y
        · exact .inl ((hu _ e).trans y)
        · exact .inr (hpd _ y)
    · refine h.new s x ?_ b h1
      by_cases e : s = t
      · subst e; simp [St.goto, setf] at hs
      · simpa [St.goto, setf, e] using hs
  | @evUnlock t k d u hq =>
    refine ⟨lst, h.same rfl rfl (held_same (t := t) (p := .evict k d) rfl (fun _ _ => rfl) (by rw [hq]; rfl)) (fun x hx => ?_) (fun s e hs => ?_)⟩
    · obtain ⟨a, b, c⟩ := hx
      refine ⟨off_hist rfl a, Eq.trans (b := held w x) ?_ b, ?_⟩
      · rw [held_at, held_at]
        by_cases e : x = t
        · subst e; simp [St.goto, setf, hq, chunkAt]
        · simp [St.goto, setf, e]
      by_cases e : x = u
      · exact .inl (by rw [e]; simp [setf])
      · rcases c with c | ⟨s, k', d', c⟩
        · exact .inl (by simpa [St.goto, setf, e] using c)
        · refine .inr ⟨s, k', d', ?_⟩
          by_cases e' : s = t
          · subst e'; rw [hq] at c; cases c; exact absurd rfl e
          · simpa [St.goto, setf, e'] using c
    · by_cases e' : s = t
      · subst e'; simp [St.goto, setf] at hs
      · simpa [St.goto, setf, e'] using hs
  | @exchangeOff t k d ts m hq hre hn h0 =>
    have hM : M w t := (hg.here (μ := w.mem) (w := w) hq).1
    have e := newest hg hM.1 hre
    refine ⟨lst, h.move rfl (fun _ _ => rfl) rfl rfl rfl (fun _ => ?_) (by cases k <;> simp [chunkAt, hq, St.goto])
      (fun _ _ _ e => by rw [hq] at e; cases e) (fun _ e => by cases k <;> cases e)⟩
    refine ⟨ts + 1, _, if_pos ⟨rfl, rfl⟩, rfl, fun ts' m' hm' => ?_⟩
    by_cases e' : ts' = ts + 1
    · omega
    · have : w.mem.hist .en ts' = some m' := by simpa [St.goto, Mem.rmwAcqRel, Mem.add, e'] using hm'
      have := hg.enMax _ _ this
      omega
  | @exchangeOn t k d ts m hq hre hn h0 =>
    have hM : M w t := (hg.here (μ := w.mem) (w := w) hq).1
    have e := newest hg hM.1 hre
    have hno : ¬ w.off := by
      intro ho
      obtain ⟨v, h2, -⟩ := hg.enTop
      have h3 := hre.1
      rw [e, h2] at h3
      injection h3 with this
      rw [← this, hg.off ho] at h0
      exact h0 rfl
    refine ⟨lst, h.same rfl rfl (held_same (t := t) (p := .evict k d) rfl (fun _ _ => rfl) (by rw [hq]; rfl))
      (fun x hx => absurd hx.1 hno) (fun s e hs => ?_)⟩
    by_cases e' : s = t
    · subst e'; simp [St.goto, setf] at hs
    · simpa [St.goto, setf, e'] using hs
  | turnOn hq => exact ⟨lst, .empty fun b hb => h.new _ _ hq b hb⟩
  | newBuf => exact ⟨lst, .empty fun b hb => by cases hb; simp [setf]⟩
  | take => exact ⟨lst, .empty fun b hb => by cases hb⟩
  | dReturnNone _ hb => exact ⟨lst, .empty fun b hb' => by have hb' : w.buf = some b := hb'; rw [hb] at hb'; cases hb'⟩
  | _ =>
    refine ⟨lst, h.move rfl (fun _ _ => rfl) rfl rfl rfl (off_hist rfl) ?_ (fun _ _ _ e => ?_) (fun _ e => by cases e)⟩
    · simp_all [chunkAt, St.goto]
    · simp_all

theorem Fitting.room {n : Nat} {w : St} (h : Fitting n w) : ∃ lst, Room n w lst := by
  induction h with
  | init => exact ⟨fun _ => 0, .empty fun _ h => by cases h⟩
  | step h hs hf ih =>
    obtain ⟨lst, hr⟩ := ih
    exact room_step h.reachable h.fits hr hs

/-- C106: if there are no more than `n` registered threads and rings have at least `n` chunks, no thread is ever
in the loop of `getChunk` without a chunk to take. -/
theorem C106_room {n : Nat} {w : St} (h : Fitting n w) (t : Nat) : ¬ Starved w t := by
  rintro ⟨b, hq, hr, hle, hbag⟩
  obtain ⟨g, hg⟩ := inv_reachable h.reachable
  obtain ⟨lst, hR⟩ := h.room
  have hL : L w g t ∧ w.tc t = none ∧ w.buf = some b := hg.here (μ := w.mem) (w := w) hq
  have hn := h.fits.room b hr
  have hout : ∀ i, i < (w.bufs b).next → IsOut w b i := fun i hi => ⟨hi, fun v hv => by rw [hbag] at hv; cases hv⟩
  have hne : ∀ i, i < (w.bufs b).next → lst i ≠ t := by
    intro i hi e
    rcases (hR.out b hL.2.2 hr i (hout i hi)).2 with x | x
    · rw [e, held_at, hq] at x; rw [show chunkAt (.getChunk b) (w.tc t) = w.tc t from rfl, hL.2.1] at x; cases x
    · exact live_not_gone hg hL.1.2.1 hL.1.1 (by rw [hq]; rfl) (e ▸ x)
  have ht : t < n := h.fits.few t hL.1.2.1.1
  have hnd : ((List.range n).map lst).Nodup := by
    rw [List.nodup_map_iff_inj_on List.nodup_range]
    intro i hi j hj e
    have hi := List.mem_range.1 hi
    have hj := List.mem_range.1 hj
    exact hR.inj b hL.2.2 hr i j (hout i (by omega)) (hout j (by omega)) e
  have hnd2 : (t :: (List.range n).map lst).Nodup := by
    refine List.nodup_cons.2 ⟨fun hm => ?_, hnd⟩
    obtain ⟨i, hi, e⟩ := List.mem_map.1 hm
    exact hne i (by have := List.mem_range.1 hi; omega) e
  have hsub : (t :: (List.range n).map lst) ⊆ List.range n := by
    intro x hx
    rcases List.mem_cons.1 hx with rfl | hx
    · exact List.mem_range.2 ht
    · obtain ⟨i, hi, rfl⟩ := List.mem_map.1 hx
      exact List.mem_range.2 (hR.out b hL.2.2 hr i (hout i (by have := List.mem_range.1 hi; omega))).1
  have := (List.subperm_of_subset hnd2 hsub).length_le
  simp at this
  omega

/-- C106: with no more threads than chunks a logging call can always go on, whatever the other
threads do, and by C106_short it is then over after at most thirteen moves. -/
theorem C106_logs {n : Nat} {w : St} (h : Fitting n w) {t : Nat} (ht : (w.pc t).logging = true) :
    ∃ w', Step true w w' ∧ w'.pc t ≠ w.pc t ∧
      (w'.pc t = .idle ∨ ((w'.pc t).logging = true ∧ (w'.pc t).left < (w.pc t).left)) := by
  rcases C106_moves h.reachable (t := t) (fun e => by rw [e] at ht; cases ht) with ⟨w', h1, h2⟩ | x | ⟨k, d, e, -⟩
  · exact ⟨w', h1, h2, (step_left h1 ht).resolve_left h2⟩
  · exact absurd x (C106_room h t)
  · rw [e] at ht; cases ht

/-- C106: and a thread in any call can go on, except that the eviction waits while each thread that is
left to evict is in a logging call, which can go on. -/
theorem C106_waits {n : Nat} {w : St} (h : Fitting n w) {t : Nat} (ht : w.pc t ≠ .idle) :
    (∃ w', Step true w w' ∧ w'.pc t ≠ w.pc t) ∨ ∃ k d, w.pc t = .evict k d ∧ ∀ u, w.pend u = true →
      w.lk u = some u ∧ (w.pc u).logging = true ∧ ∃ w', Step true w w' ∧ w'.pc u ≠ w.pc u := by
  rcases C106_moves h.reachable ht with x | x | ⟨k, d, e, hp⟩
  · exact .inl x
  · exact absurd x (C106_room h t)
  · refine .inr ⟨k, d, e, fun u hu => ⟨(hp u hu).1, (hp u hu).2, ?_⟩⟩
    obtain ⟨w', h1, h2, -⟩ := C106_logs h (hp u hu).2
    exact ⟨w', h1, h2⟩

/-! ### Cases that meet the hypotheses -/

/-- Why there must be enough chunks: a ring of one chunk and two threads; the one has the chunk and the
other is in the loop of `getChunk`, where it stays for as long as the first keeps it. -/
theorem C106_refuted_small : ∃ w : St, Reachable true w ∧ Starved w 2 := by
  have r := Reachable.init (pol := true)
  have r := r.step (.lockM (t := 0) rfl rfl)
  have r := r.step (.start (t := 0) rfl (fun _ => rfl))
  have r := r.step (.startOff (t := 0) (ts := 0) rfl ⟨rfl, by decide⟩ rfl)
  have r := r.step (.newBuf (t := 0) true 1 rfl)
  have r := r.step (.turnOn (t := 0) (ts := 1) rfl ⟨rfl, by decide⟩)
  have r := r.step (.unlockM (t := 0) rfl)
  have r := r.step (.lockM (t := 1) rfl rfl)
  have r := r.step (.register (t := 1) rfl rfl)
  have r := r.step (.unlockM (t := 1) rfl)
  have r := r.step (.lockM (t := 2) rfl rfl)
  have r := r.step (.register (t := 2) rfl rfl)
  have r := r.step (.unlockM (t := 2) rfl)
  have r := r.step (.logOn (t := 1) (ts := 1) rfl ⟨rfl, by decide⟩ (by decide))
  have r := r.step (.tryOk (t := 1) rfl rfl)
  have r := r.step (.noChunk (t := 1) rfl rfl rfl)
  have r := r.step (.checkOn (t := 1) (ts := 1) rfl ⟨rfl, by decide⟩ (by decide))
  have r := r.step (.replaceNone (t := 1) rfl rfl)
  have r := r.step (.againOn (t := 1) (ts := 1) rfl ⟨rfl, by decide⟩ (by decide))
  have r := r.step (.bufSome (t := 1) rfl rfl)
  have r := r.step (.fresh (t := 1) rfl (by decide))
  have r := r.step (.logOn (t := 2) (ts := 1) rfl ⟨rfl, by decide⟩ (by decide))
  have r := r.step (.tryOk (t := 2) rfl rfl)
  have r := r.step (.noChunk (t := 2) rfl rfl rfl)
  have r := r.step (.checkOn (t := 2) (ts := 1) rfl ⟨rfl, by decide⟩ (by decide))
  have r := r.step (.replaceNone (t := 2) rfl rfl)
  have r := r.step (.againOn (t := 2) (ts := 1) rfl ⟨rfl, by decide⟩ (by decide))
  have r := r.step (.bufSome (t := 2) rfl rfl)
  exact ⟨_, r, 0, rfl, rfl, by decide, rfl⟩

theorem Fitting.keep {n : Nat} {w w' : St} (h : Fitting n w) (hs : Step true w w') (e1 : w'.reg = w.reg)
    (e2 : w'.bufs = w.bufs) : Fitting n w' :=
  h.step hs ⟨by rw [e1]; exact h.fits.few, by rw [e2]; exact h.fits.room⟩

/-- Thread 0 is evicting the threads, thread 1 is in a logging call and about to get a chunk of a
ring of two. -/
theorem exEvicting : ∃ w : St, Fitting 2 w ∧ w.pc 0 = .evict false 0 ∧ w.pend 1 = true ∧ w.pc 1 = .getChunk 0 ∧
    (w.pc 1).logging = true ∧ (w.bufs 0).ring = true := by
  have r := Fitting.init (n := 2)
  have r := r.keep (.lockM (t := 0) rfl rfl) rfl rfl
  have r := r.keep (.start (t := 0) rfl (fun _ => rfl)) rfl rfl
  have r := r.keep (.startOff (t := 0) (ts := 0) rfl ⟨rfl, by decide⟩ rfl) rfl rfl
  have r := r.step (.newBuf (t := 0) true 2 rfl) ⟨r.fits.few, fun b => by
    by_cases e : b = 0
    · subst e; exact fun _ => Nat.le_refl 2
    · intro hb; simp [St.goto, St.init, setf, e] at hb⟩
  have r := r.keep (.turnOn (t := 0) (ts := 1) rfl ⟨rfl, by decide⟩) rfl rfl
  have r := r.keep (.unlockM (t := 0) rfl) rfl rfl
  have r := r.keep (.lockM (t := 1) rfl rfl) rfl rfl
  have r := r.step (.register (t := 1) rfl rfl) ⟨fun t => by
    by_cases e : t = 1
    · subst e; exact fun _ => (by decide)
    · intro hb; simp [St.goto, St.init, setf, e] at hb, r.fits.room⟩
  have r := r.keep (.unlockM (t := 1) rfl) rfl rfl
  have r := r.keep (.logOn (t := 1) (ts := 1) rfl ⟨rfl, by decide⟩ (by decide)) rfl rfl
  have r := r.keep (.tryOk (t := 1) rfl rfl) rfl rfl
  have r := r.keep (.noChunk (t := 1) rfl rfl rfl) rfl rfl
  have r := r.keep (.checkOn (t := 1) (ts := 1) rfl ⟨rfl, by decide⟩ (by decide)) rfl rfl
  have r := r.keep (.replaceNone (t := 1) rfl rfl) rfl rfl
  have r := r.keep (.againOn (t := 1) (ts := 1) rfl ⟨rfl, by decide⟩ (by decide)) rfl rfl
  have r := r.keep (.bufSome (t := 1) rfl rfl) rfl rfl
  have r := r.keep (.lockM (t := 0) rfl rfl) rfl rfl
  have r := r.keep (.stop (t := 0) rfl) rfl rfl
  have r := r.keep (.exchangeOn (t := 0) (ts := 1) rfl ⟨rfl, by decide⟩ rfl (by decide)) rfl rfl
  exact ⟨_, r, rfl, rfl, rfl, rfl, rfl⟩

end Phosphor.TLog.W
