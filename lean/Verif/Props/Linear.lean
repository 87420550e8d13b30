import Verif.Props.Clock
import Verif.Props.TraceLogFull
import Mathlib.Tactic.ByContra
/-
C96: every call of `logEvent` takes effect at one moment between its call and its return.
-/
namespace Phosphor.Lin
open TLog

/-! ### Specification: a recorder whose calls take effect at one moment -/

/-- What happens, as seen from outside, and the moments at which calls of `logEvent` take effect. -/
inductive Mark (ε : Type)
  /-- thread `t` calls `logEvent` -/
  | call (t : Nat) (e : ε)
  /-- the call of `t` takes effect: the event is recorded in run `b`, or not recorded -/
  | effect (t : Nat) (e : ε) (b : Option Nat)
  /-- the call of `t` returns -/
  | ret (t : Nat)
  /-- an item of the log's history: start, stop, retrieval, registration … -/
  | item (i : Item)
deriving DecidableEq

/-- Where a thread is with its call. -/
inductive Phase (ε : Type)
  | idle
  | called (e : ε)
  | done

variable {ε : Type} {tid : Nat → Nat} {s s' : St ε} {t : Nat}

/-- The phase of `t`; the newest mark comes first. -/
def phase (t : Nat) : List (Mark ε) → Phase ε
  | [] => .idle
  | .call u e :: h => if u = t then .called e else phase t h
  | .effect u _ _ :: h => if u = t then .done else phase t h
  | .ret u :: h => if u = t then .idle else phase t h
  | .item _ :: h => phase t h

def items : List (Mark ε) → List Item
  | [] => []
  | .item i :: h => i :: items h
  | .call _ _ :: h => items h
  | .effect _ _ _ :: h => items h
  | .ret _ :: h => items h

/-- The recorder. A call takes effect once, after it was made and before it returns. At that moment the event
is recorded in the run that is on, the thread being registered; or it is not recorded, tracing being off,
the thread not registered, or the run one in fixed mode. -/
def Legal : List (Mark ε) → Prop
  | [] => True
  | .call t _ :: h => phase t h = .idle ∧ Legal h
  | .effect t e (some b) :: h => (phase t h = .called e ∧ on (items h) = true ∧ isReg t (items h) = true ∧
      ∃ cfg, lastRun (items h) = some (b, cfg)) ∧ Legal h
  | .effect t e none :: h => (phase t h = .called e ∧ (on (items h) = false ∨ isReg t (items h) = false ∨
      ∃ b cfg, lastRun (items h) = some (b, cfg) ∧ cfg.mode = .fixed)) ∧ Legal h
  | .ret t :: h => phase t h = .done ∧ Legal h
  | .item i :: h => ItemOk i (items h) ∧ Legal h

/-- What can be seen from outside. -/
def visible : List (Mark ε) → List (Mark ε)
  | [] => []
  | .effect _ _ _ :: h => visible h
  | .call t e :: h => .call t e :: visible h
  | .ret t :: h => .ret t :: visible h
  | .item i :: h => .item i :: visible h

/-- The events of `t` recorded in run `b`, oldest first. -/
def recorded (b t : Nat) : List (Mark ε) → List ε
  | [] => []
  | .effect u e (some c) :: h => if u = t ∧ c = b then recorded b t h ++ [e] else recorded b t h
  | .effect _ _ none :: h => recorded b t h
  | .call _ _ :: h => recorded b t h
  | .ret _ :: h => recorded b t h
  | .item _ :: h => recorded b t h

/-- The events that `t` called `logEvent` with, oldest first. -/
def asked (t : Nat) : List (Mark ε) → List ε
  | [] => []
  | .call u e :: h => if u = t then asked t h ++ [e] else asked t h
  | .effect _ _ _ :: h => asked t h
  | .ret _ :: h => asked t h
  | .item _ :: h => asked t h

/-- The events of the calls of `t` that have taken effect, oldest first. -/
def effects (t : Nat) : List (Mark ε) → List ε
  | [] => []
  | .effect u e _ :: h => if u = t then effects t h ++ [e] else effects t h
  | .call _ _ :: h => effects t h
  | .ret _ :: h => effects t h
  | .item _ :: h => effects t h

/-- The event of a call that has not taken effect. -/
def Phase.waiting : Phase ε → List ε
  | .called e => [e]
  | _ => []

/-! ### What is seen of an execution of the log -/

/-- `t` has called `logEvent` and has not returned. -/
def busy (t : Nat) : List (Mark ε) → Bool
  | [] => false
  | .call u _ :: h => if u = t then true else busy t h
  | .ret u :: h => if u = t then false else busy t h
  | .effect _ _ _ :: h => busy t h
  | .item _ :: h => busy t h

/-- The call that a step of `t` makes. -/
def calls (t : Nat) (c : Choice ε) (v : List (Mark ε)) : List (Mark ε) :=
  match c with
  | .log e => .call t e :: v
  | _ => v

/-- What is seen before a step of `t`, and of the step: a call, and new items. -/
def before (s s' : St ε) (t : Nat) (c : Choice ε) (v : List (Mark ε)) : List (Mark ε) :=
  (s'.hist.take (s'.hist.length - s.hist.length)).map .item ++ calls t c v

/-- The same with the return of the call, if the step ends it. -/
def watch1 (s s' : St ε) (t : Nat) (c : Choice ε) (v : List (Mark ε)) : List (Mark ε) :=
  if busy t (before s s' t c v) && s'.isIdle t then .ret t :: before s s' t c v else before s s' t c v

/-- What is seen of an execution, newest first. -/
def watch (tid : Nat → Nat) (s : St ε) : List (Nat × Choice ε) → List (Mark ε) → List (Mark ε)
  | [], v => v
  | (t, c) :: l, v =>
    match s.next true tid t c with
    | .to s' => watch tid s' l (watch1 s s' t c v)
    | _ => v

/-! ### Lemmas -/

/-- A mark of `t` is newer than the newest item. -/
def above (t : Nat) : List (Mark ε) → Bool
  | [] => false
  | .item _ :: _ => false
  | .call u _ :: h => if u = t then true else above t h
  | .effect u _ _ :: h => if u = t then true else above t h
  | .ret u :: h => if u = t then true else above t h

/-- Put a mark below the newest item. -/
def slip (m : Mark ε) : List (Mark ε) → List (Mark ε)
  | [] => [m]
  | .item i :: h => .item i :: m :: h
  | .call u e :: h => .call u e :: slip m h
  | .effect u e b :: h => .effect u e b :: slip m h
  | .ret u :: h => .ret u :: slip m h

theorem legal_histOk {h : List (Mark ε)} (hl : Legal h) : HistOk (items h) := by
  induction h with
  | nil => trivial
  | cons m h ih =>
    cases m with
    | item i => exact ⟨hl.1, ih hl.2⟩
    | effect t e b => cases b <;> exact ih hl.2
    | _ => exact ih hl.2

theorem legal_items {h : List (Mark ε)} (new : List Item) (hl : Legal h) (hok : HistOk (new ++ items h)) :
    Legal (new.map .item ++ h) ∧ items (new.map .item ++ h) = new ++ items h := by
  induction new with
  | nil => exact ⟨hl, rfl⟩
  | cons i new ih =>
    obtain ⟨h1, h2⟩ := ih hok.2
    refine ⟨⟨?_, h1⟩, ?_⟩
    · show ItemOk i (items (new.map Mark.item ++ h))
      rw [h2]; exact hok.1
    · show i :: items (new.map Mark.item ++ h) = _
      rw [h2]; rfl

theorem phase_items (new : List Item) (h : List (Mark ε)) (t : Nat) : phase t (new.map .item ++ h) = phase t h := by
  induction new with
  | nil => rfl
  | cons i new ih => exact ih

theorem visible_items (new : List Item) (h : List (Mark ε)) :
    visible (new.map .item ++ h) = new.map .item ++ visible h := by
  induction new with
  | nil => rfl
  | cons i new ih => simp only [List.map_cons, List.cons_append, visible, ih]

theorem recorded_items (new : List Item) (h : List (Mark ε)) (b t : Nat) :
    recorded b t (new.map .item ++ h) = recorded b t h := by
  induction new with
  | nil => rfl
  | cons i new ih => exact ih

/-- A call that has not returned is seen. -/
theorem legal_busy {h : List (Mark ε)} (hl : Legal h) (t : Nat) : busy t (visible h) = true ↔ phase t h ≠ .idle := by
  induction h with
  | nil => simp [visible, busy, phase]
  | cons m h ih =>
    cases m with
    | call u e =>
      simp only [visible, busy, phase]
      by_cases hu : u = t
      · simp [hu]
      · simp only [hu, if_false]; exact ih hl.2
    | ret u =>
      simp only [visible, busy, phase]
      by_cases hu : u = t
      · simp [hu]
      · simp only [hu, if_false]; exact ih hl.2
    | item i => exact ih hl.2
    | effect u e b =>
      have h2 : Legal h := by cases b <;> exact hl.2
      have h1 : phase u h = .called e := by cases b <;> exact hl.1.1
      simp only [visible, phase]
      by_cases hu : u = t
      · subst hu
        simp only [if_true]
        have := (ih h2).2 (by rw [h1]; simp)
        simp [this]
      · simp only [hu, if_false]; exact ih h2

/-- The last run is the one that may be recording. -/
theorem recording_lastRun {h : List Item} {b : Nat} (hr : Clock.recording h = some b) :
    ∃ cfg, lastRun h = some (b, cfg) := by
  induction h with
  | nil => cases hr
  | cons i h ih =>
    cases i with
    | run c cfg => simp only [Clock.recording, Option.some.injEq] at hr; subst hr; exact ⟨cfg, rfl⟩
    | call cb => cases hr
    | noCall => cases hr
    | _ => exact ih hr

theorem lastRun_mem {h : List Item} {b : Nat} {cfg : TraceConfig} (hr : lastRun h = some (b, cfg)) :
    Item.run b cfg ∈ h ∧ b ∈ runIds h := by
  induction h with
  | nil => cases hr
  | cons i h ih =>
    cases i with
    | run c cfg' => simp only [lastRun, Option.some.injEq, Prod.mk.injEq] at hr; obtain ⟨rfl, rfl⟩ := hr; simp [runIds]
    | _ => exact ⟨List.mem_cons_of_mem _ (ih hr).1, (ih hr).2⟩

/-- An event that is recorded while a stop is under way has taken effect before the stop. -/
theorem slip_spec {h : List (Mark ε)} {t b : Nat} {e : ε} {cfg : TraceConfig} (hl : Legal h)
    (hs : stopping (items h) ≠ none) (ha : above t h = false) (hp : phase t h = .called e)
    (hreg : isReg t (items h) = true) (hrun : lastRun (items h) = some (b, cfg)) :
    Legal (slip (.effect t e (some b)) h) ∧ items (slip (.effect t e (some b)) h) = items h ∧
    visible (slip (.effect t e (some b)) h) = visible h ∧ phase t (slip (.effect t e (some b)) h) = .done ∧
    (∀ u, u ≠ t → phase u (slip (.effect t e (some b)) h) = phase u h) ∧
    (∀ u, above u (slip (.effect t e (some b)) h) = above u h) ∧
    (∀ c u, recorded c u (slip (.effect t e (some b)) h) =
      if u = t ∧ c = b then recorded c u h ++ [e] else recorded c u h) := by
  induction h with
  | nil => exact absurd rfl hs
  | cons m h ih =>
    have other : ∀ {u : Nat}, above t (m :: h) = (if u = t then true else above t h) → u ≠ t ∧ above t h = false := by
      intro u hu
      rw [ha] at hu
      by_cases h' : u = t
      · rw [if_pos h'] at hu; cases hu
      · rw [if_neg h'] at hu; exact ⟨h', hu.symm⟩
    cases m with
    | item i =>
      have hi : ∃ sh f, i = .stop sh f := by
        cases i <;> first | exact ⟨_, _, rfl⟩ | exact absurd rfl hs
      obtain ⟨sh, f, rfl⟩ := hi
      refine ⟨⟨hl.1, ⟨hp, hl.1.2, hreg, cfg, hrun⟩, hl.2⟩, rfl, rfl, ?_, ?_, fun _ => rfl, ?_⟩
      · show (if t = t then Phase.done else _) = _
        simp
      · intro u hu
        show (if t = u then Phase.done else _) = _
        simp [Ne.symm hu]; rfl
      · intro c u
        show (if t = u ∧ b = c then _ else _) = _
        by_cases h' : u = t ∧ c = b
        · rw [if_pos ⟨h'.1.symm, h'.2.symm⟩, if_pos h']; rfl
        · rw [if_neg (fun h'' => h' ⟨h''.1.symm, h''.2.symm⟩), if_neg h']; rfl
    | call u x =>
      obtain ⟨hu, ha'⟩ := other (u := u) rfl
      have hp' : phase t h = .called e := by simpa [phase, hu] using hp
      obtain ⟨k1, k2, k3, k4, k5, k6, k7⟩ := ih hl.2 hs ha' hp' hreg hrun
      refine ⟨⟨by rw [k5 u hu]; exact hl.1, k1⟩, k2, ?_, ?_, ?_, ?_, k7⟩
      · simp only [slip, visible, k3]
      · simp only [slip, phase, hu, if_false, k4]
      · intro v hv; simp only [slip, phase, k5 v hv]
      · intro v; simp only [slip, above, k6 v]
    | ret u =>
      obtain ⟨hu, ha'⟩ := other (u := u) rfl
      have hp' : phase t h = .called e := by simpa [phase, hu] using hp
      obtain ⟨k1, k2, k3, k4, k5, k6, k7⟩ := ih hl.2 hs ha' hp' hreg hrun
      refine ⟨⟨by rw [k5 u hu]; exact hl.1, k1⟩, k2, ?_, ?_, ?_, ?_, k7⟩
      · simp only [slip, visible, k3]
      · simp only [slip, phase, hu, if_false, k4]
      · intro v hv; simp only [slip, phase, k5 v hv]
      · intro v; simp only [slip, above, k6 v]
    | effect u x d =>
      obtain ⟨hu, ha'⟩ := other (u := u) rfl
      have hp' : phase t h = .called e := by simpa [phase, hu] using hp
      have hl2 : Legal h := by cases d <;> exact hl.2
      obtain ⟨k1, k2, k3, k4, k5, k6, k7⟩ := ih hl2 hs ha' hp' hreg hrun
      refine ⟨?_, k2, ?_, ?_, ?_, ?_, ?_⟩
      · cases d with
        | none => exact ⟨by rw [k5 u hu, k2]; exact hl.1, k1⟩
        | some d => exact ⟨by rw [k5 u hu, k2]; exact hl.1, k1⟩
      · simp only [slip, visible, k3]
      · simp only [slip, phase, hu, if_false, k4]
      · intro v hv; simp only [slip, phase, k5 v hv]
      · intro v; simp only [slip, above, k6 v]
      · intro c v
        cases d with
        | none => exact k7 c v
        | some d =>
          simp only [slip, recorded, k7 c v]
          by_cases h1 : u = v ∧ d = c
          · have : ¬ (v = t ∧ c = b) := fun h2 => hu (h1.1.trans h2.1)
            simp [h1, this]
          · simp [h1]

/-! ### The invariant -/

structure Inv (tid : Nat → Nat) (s : St ε) (v h : List (Mark ε)) : Prop where
  reach : Reachable true tid s
  legal : Legal h
  vis : visible h = v
  its : items h = s.hist
  recd : ∀ b t, b < s.nextBuf → recorded b t h = s.stored b t
  ph : ∀ t e, phase t h = .called e ↔ (s.pc t).event = some e
  idle : ∀ t, s.pc t = .idle → phase t h = .idle
  late : ∀ t e, (s.pc t).event = some e → s.pc t ≠ .readEnabled e → stopping s.hist ≠ none → above t h = false

theorem Inv.init : Inv tid (St.init : St ε) [] [] := by
  constructor <;> simp [St.init, Legal, visible, items, recorded, phase, above, Pc.event]
  exact .init

/-- A run that recorded something has begun. -/
theorem recorded_run {h : List (Mark ε)} (hl : Legal h) {b t : Nat} (hr : recorded b t h ≠ []) : b ∈ runIds (items h) := by
  induction h with
  | nil => exact absurd rfl hr
  | cons m h ih =>
    cases m with
    | item i =>
      have := ih hl.2 hr
      cases i <;> simp [items, runIds, this]
    | effect u e d =>
      cases d with
      | none => exact ih hl.2 hr
      | some d =>
        simp only [recorded] at hr
        split at hr
        · rename_i h'
          obtain ⟨_, rfl⟩ := h'
          obtain ⟨cfg, hc⟩ := hl.1.2.2.2
          exact (lastRun_mem hc).2
        · exact ih hl.2 hr
    | call u e => exact ih hl.2 hr
    | ret u => exact ih hl.2 hr

/-- A thread that finds `enabled` cleared gives up. -/
theorem read_step {c : Choice ε} {e : ε} (hp : s.pc t = .readEnabled e) (hoff : s.enabled = false)
    (hs : s.next true tid t c = .to s') : (s'.pc t).event = none ∨ s'.pc t = .readEnabled e := by
  have key : ∀ sp x, s.logStep tid t sp = .to x → (x.pc t).event = none := by
    intro sp x hs
    simp only [St.logStep, hp, hoff] at hs
    cases hs
    rw [goto_pc]; rfl
  have nb : ∀ sp, s.logStep tid t sp ≠ .blocked := by
    intro sp hs
    simp only [St.logStep, hp] at hs
    cases hs
  unfold St.next at hs
  cases c with
  | step =>
    dsimp only at hs
    split at hs
    · rename_i h; exact absurd h (nb _)
    · exact Or.inl (key _ _ hs)
  | spurious =>
    dsimp only at hs
    split at hs
    · rename_i h; exact absurd h (nb _)
    · exact Or.inl (key _ _ hs)
  | free b =>
    dsimp only at hs
    split at hs <;> cases hs
    exact Or.inr hp
  | log e => simp [St.isIdle, hp] at hs
  | lock => simp [St.isIdle, hp] at hs
  | register n => simp [St.isIdle, hp] at hs
  | deregister => simp [St.isIdle, hp] at hs
  | _ => simp [hp] at hs

/-- A buffer is made without events, and not by a thread that has an event in hand. -/
theorem new_buf {c : Choice ε} (hs : s.next true tid t c = .to s') : s'.nextBuf = s.nextBuf ∨
    (s'.nextBuf = s.nextBuf + 1 ∧ (∀ u, s'.stored s.nextBuf u = []) ∧ (s.pc t).event = none) := by
  cases next_book hs with
  | calm new hn => exact Or.inl hn
  | free b hb e => subst e; exact Or.inl rfl
  | retrieve cs st hp he' e => subst e; exact Or.inl rfl
  | create n st hp e =>
    subst e
    exact Or.inr ⟨rfl, fun u => by simp [St.goto, St.createBuffer], by rw [hp]; rfl⟩
  | enable st hp e =>
    subst e
    obtain ⟨q, _, e⟩ := pop_goto s.enable t st
    rw [e]; exact Or.inl rfl
  | reg n hp hi e =>
    subst e
    exact Or.inl (registerBody_frame (s := s) (tid := tid) (t := t) n).1
  | dereg x hp hi hx e =>
    subst e
    obtain ⟨hp', rfl⟩ := deregisterBody_eq hi hx
    exact Or.inl rfl

/-- While a chunk is held and no stop is under way, tracing is on. -/
theorem recording_on {h : List Item} {b : Nat} (hok : HistOk h) (hr : Clock.recording h = some b)
    (hs : stopping h = none) : on h = true := by
  induction h with
  | nil => cases hr
  | cons i h ih =>
    cases i with
    | run c cfg => rfl
    | stop sh f => cases hs
    | call cb => cases hr
    | noCall => cases hr
    | configure c => exact ih hok.2 hr hok.1
    | _ => exact ih hok.2 hr hok.1.1

/-- Tracing is off while a stop is under way. -/
theorem stopping_off {h : List Item} (hs : stopping h ≠ none) : on h = false := by
  cases h with
  | nil => rfl
  | cons i h => cases i <;> first | rfl | exact absurd rfl hs

/-- Why an event is not recorded. -/
theorem drop_why (h : Reachable true tid s) (hd : Drop t s) :
    on s.hist = false ∨ isReg t s.hist = false ∨ ∃ b cfg, lastRun s.hist = some (b, cfg) ∧ cfg.mode = .fixed := by
  rcases hd.why h.hist h.ctl0 h.data with h' | h' | ⟨p, hb, hm, -, -⟩
  · exact Or.inl h'
  · exact Or.inr (Or.inl h')
  · rcases hon : on s.hist with _ | _
    · exact Or.inl rfl
    · right; right
      have hcr : s.creating = false := by
        rcases hcr : s.creating with _ | _
        · rfl
        · unfold St.creating at hcr
          split at hcr
          · cases hcr
          · rename_i o ho
            have := h.ctl.off o (Clock.enable_calm hcr).1
            rw [h.hist.en, hon] at this; cases this
      have hbuf := h.hist.buf
      rw [hcr] at hbuf
      have hrec : Clock.recording s.hist = some p := by
        rw [Clock.on_recording h.hist.ok hon, ← hb, hbuf]; rfl
      obtain ⟨cfg, hl⟩ := recording_lastRun hrec
      refine ⟨p, cfg, hl, ?_⟩
      rw [← hm]
      exact (C15_size h (lastRun_mem hl).1).2.2.2.symm

/-- The marks of a step before its items, and what they have to satisfy. -/
structure Mid (tid : Nat → Nat) (s s' : St ε) (t : Nat) (c : Choice ε) (v h : List (Mark ε)) : Prop where
  legal : Legal h
  vis : visible h = calls t c v
  its : items h = s.hist
  recd : ∀ b u, b < s'.nextBuf → recorded b u h = s'.stored b u
  ph : ∀ u e, phase u h = .called e ↔ (s'.pc u).event = some e
  idle : ∀ u, u ≠ t → s'.pc u = .idle → phase u h = .idle
  late : ∀ u e, (s'.pc u).event = some e → s'.pc u ≠ .readEnabled e → s'.hist = s.hist → stopping s.hist ≠ none →
    above u h = false

theorem Mid.inv {c : Choice ε} {v h : List (Mark ε)} (hr : Reachable true tid s) (hs : s.next true tid t c = .to s')
    (hm : Mid tid s s' t c v h) : ∃ h', Inv tid s' (watch1 s s' t c v) h' := by
  have hr' : Reachable true tid s' := .step hr hs
  obtain ⟨new, hnew⟩ := next_hist hs
  have hok : HistOk (new ++ items h) := by rw [hm.its, ← hnew]; exact hr'.hist.ok
  obtain ⟨hl2, hi2⟩ := legal_items new hm.legal hok
  have hbef : before s s' t c v = new.map .item ++ calls t c v := by
    unfold before
    rw [hnew]
    congr 2
    simp
  have hvis : visible (new.map .item ++ h) = before s s' t c v := by
    rw [visible_items, hm.vis, hbef]
  have hab : ∀ u e, (s'.pc u).event = some e → s'.pc u ≠ .readEnabled e → stopping s'.hist ≠ none →
      above u (new.map .item ++ h) = false := by
    intro u e he hne hst
    cases new with
    | nil =>
      rw [List.nil_append] at hnew
      exact hm.late u e he hne hnew (hnew ▸ hst)
    | cons i new => rfl
  have hbusy := legal_busy hl2 t
  rw [hvis] at hbusy
  by_cases hret : (busy t (before s s' t c v) && s'.isIdle t) = true
  · have hw : watch1 s s' t c v = .ret t :: before s s' t c v := by simp only [watch1, hret, if_true]
    rw [Bool.and_eq_true] at hret
    have hidle := isIdle_iff.1 hret.2
    have hdone : phase t (new.map .item ++ h) = .done := by
      have h1 := hbusy.1 hret.1
      rcases h2 : phase t (new.map .item ++ h) with _ | e | _
      · exact absurd h2 h1
      · rw [phase_items] at h2
        have := (hm.ph t e).1 h2
        rw [hidle] at this; cases this
      · exact h2
    refine ⟨.ret t :: (new.map .item ++ h), hr', ⟨hdone, hl2⟩, ?_, ?_, ?_, ?_, ?_, ?_⟩
    · rw [hw]; simp only [visible, hvis]
    · show items (new.map .item ++ h) = _
      rw [hi2, hm.its, hnew]
    · intro b u hb
      show recorded b u (new.map .item ++ h) = _
      rw [recorded_items]; exact hm.recd b u hb
    · intro u e
      simp only [phase, phase_items]
      by_cases hu : t = u
      · subst hu
        rw [hidle]; simp [Pc.event]
      · simp only [hu, if_false]; exact hm.ph u e
    · intro u hu
      simp only [phase, phase_items]
      by_cases hu' : t = u
      · simp [hu']
      · simp only [hu', if_false]; exact hm.idle u (Ne.symm hu') hu
    · intro u e he hne hst
      simp only [above]
      by_cases hu' : t = u
      · subst hu'; rw [hidle] at he; cases he
      · simp only [hu', if_false]; exact hab u e he hne hst
  · have hw : watch1 s s' t c v = before s s' t c v := by simp only [watch1, hret]; simp
    refine ⟨new.map .item ++ h, hr', hl2, by rw [hw, hvis], ?_, ?_, ?_, ?_, hab⟩
    · rw [hi2, hm.its, hnew]
    · intro b u hb; rw [recorded_items]; exact hm.recd b u hb
    · intro u e; rw [phase_items]; exact hm.ph u e
    · intro u hu
      by_cases hu' : u = t
      · subst hu'
        rw [Bool.and_eq_true] at hret
        by_contra hne
        exact hret ⟨hbusy.2 hne, isIdle_iff.2 hu⟩
      · rw [phase_items]; exact hm.idle u hu' hu

theorem Inv.step {c : Choice ε} {v h : List (Mark ε)} (hi : Inv tid s v h) (hs : s.next true tid t c = .to s') :
    ∃ h', Inv tid s' (watch1 s s' t c v) h' := by
  have hpc := fun u (hu : u ≠ t) => next_pc hs hu
  have hnone : ∀ u, recorded s.nextBuf u h = [] := by
    intro u
    by_contra hne
    have := recorded_run hi.legal hne
    rw [hi.its] at this
    exact absurd (hi.reach.runs.lt _ this) (Nat.lt_irrefl _)
  rcases next_fate hs with ⟨e, rfl, hp, rfl⟩ | ⟨hl, hf⟩
  · refine Mid.inv (h := .call t e :: h) hi.reach hs ⟨⟨hi.idle t hp, hi.legal⟩, ?_, hi.its, hi.recd, ?_, ?_, ?_⟩
    · simp only [visible, calls, hi.vis]
    · intro u x
      simp only [phase]
      by_cases hu : t = u
      · subst hu; rw [goto_pc]; simp [Pc.event]
      · rw [hpc u (Ne.symm hu)]; simp only [hu, if_false]; exact hi.ph u x
    · intro u hu h0
      rw [hpc u hu] at h0
      simp only [phase, Ne.symm hu, if_false]; exact hi.idle u h0
    · intro u x hx hne _ hst
      by_cases hu : t = u
      · subst hu
        rw [goto_pc] at hx hne
        simp only [Pc.event, Option.some.injEq] at hx
        subst hx
        exact absurd rfl hne
      · rw [hpc u (Ne.symm hu)] at hx hne
        simp only [above, hu, if_false]; exact hi.late u x hx hne hst
  · have hvis : visible h = calls t c v := by
      rw [hi.vis]; cases c <;> first | rfl | exact absurd rfl (hl _)
    -- a step that leaves the event in hand
    have keep : (s'.pc t).event = (s.pc t).event → (∀ b, b ≠ s.nextBuf → s'.stored b = s.stored b) →
        ∃ h', Inv tid s' (watch1 s s' t c v) h' := by
      intro he hst
      refine Mid.inv (h := h) hi.reach hs ⟨hi.legal, hvis, hi.its, ?_, ?_, ?_, ?_⟩
      · intro b u hb
        by_cases hn : b = s.nextBuf
        · subst hn
          rcases new_buf hs with h1 | ⟨-, h1, -⟩
          · omega
          · rw [hnone u, h1 u]
        · rw [hst b hn]
          by_cases hlt : b < s.nextBuf
          · exact hi.recd b u hlt
          · exfalso
            rcases new_buf hs with h1 | ⟨h1, -, -⟩ <;> omega
      · intro u x
        by_cases hu : u = t
        · subst hu; rw [he]; exact hi.ph u x
        · rw [hpc u hu]; exact hi.ph u x
      · intro u hu h0; rw [hpc u hu] at h0; exact hi.idle u h0
      · intro u x hx hne _ hstop
        by_cases hu : u = t
        · subst hu
          have hx' := he ▸ hx
          by_cases hrd : s.pc u = .readEnabled x
          · have hoff : s.enabled = false := by rw [hi.reach.hist.en]; exact stopping_off hstop
            rcases read_step hrd hoff hs with h1 | h1
            · rw [h1] at hx; cases hx
            · exact absurd h1 hne
          · exact hi.late u x hx' hrd hstop
        · rw [hpc u hu] at hx hne; exact hi.late u x hx hne hstop
    cases hf with
    | keep he hst => exact keep he hst
    | drop hd he hst =>
      rcases hev : (s.pc t).event with _ | e
      · exact keep (by rw [he, hev]) (fun b _ => by rw [hst])
      · have hph := (hi.ph t e).2 hev
        have hnb : s'.nextBuf = s.nextBuf := by
          rcases new_buf hs with h1 | ⟨-, -, h1⟩
          · exact h1
          · rw [hev] at h1; cases h1
        refine Mid.inv (h := .effect t e none :: h) hi.reach hs
          ⟨⟨⟨hph, by rw [hi.its]; exact drop_why hi.reach hd⟩, hi.legal⟩, hvis, hi.its, ?_, ?_, ?_, ?_⟩
        · intro b u hb
          rw [hst]; exact hi.recd b u (hnb ▸ hb)
        · intro u x
          simp only [phase]
          by_cases hu : t = u
          · subst hu; rw [he]; simp
          · rw [hpc u (Ne.symm hu)]; simp only [hu, if_false]; exact hi.ph u x
        · intro u hu h0
          rw [hpc u hu] at h0
          simp only [phase, Ne.symm hu, if_false]; exact hi.idle u h0
        · intro u x hx hne _ hstop
          by_cases hu : t = u
          · subst hu; rw [he] at hx; cases hx
          · rw [hpc u (Ne.symm hu)] at hx hne
            simp only [above, hu, if_false]; exact hi.late u x hx hne hstop
    | store e b i hp hc hm he hst =>
      have hev : (s.pc t).event = some e := by rw [hp]; rfl
      have hph := (hi.ph t e).2 hev
      have hrec := Clock.chunk_recording hi.reach hc
      obtain ⟨cfg, hrun⟩ := recording_lastRun hrec
      have hreg : isReg t s.hist = true := by
        rw [← hi.reach.hist.reg]
        exact hi.reach.ctl.chunkInit t (by rw [hc]; simp)
      have hnb : s'.nextBuf = s.nextBuf := by
        rcases Clock.store_step hp hs with ⟨-, _, _, -, -, h1, -, -⟩ | ⟨-, -, h1, -, -⟩ <;> exact h1
      have hstored : ∀ c u, s'.stored c u = if u = t ∧ c = b then s.stored c u ++ [e] else s.stored c u := by
        intro c u
        rw [hst]
        simp only [setf]
        by_cases h1 : c = b
        · subst h1
          by_cases h2 : u = t
          · subst h2; simp
          · simp [setf, h2]
        · simp [h1]
      by_cases hstop : stopping s.hist = none
      · have hon := recording_on hi.reach.hist.ok hrec hstop
        refine Mid.inv (h := .effect t e (some b) :: h) hi.reach hs
          ⟨⟨⟨hph, by rw [hi.its]; exact ⟨hon, hreg, cfg, hrun⟩⟩, hi.legal⟩, hvis, hi.its, ?_, ?_, ?_, ?_⟩
        · intro c u hb
          rw [hstored]
          simp only [recorded]
          rw [hi.recd c u (hnb ▸ hb)]
          by_cases h1 : u = t ∧ c = b
          · rw [if_pos ⟨h1.1.symm, h1.2.symm⟩, if_pos h1]
          · rw [if_neg (fun h2 => h1 ⟨h2.1.symm, h2.2.symm⟩), if_neg h1]
        · intro u x
          simp only [phase]
          by_cases hu : t = u
          · subst hu; rw [he]; simp
          · rw [hpc u (Ne.symm hu)]; simp only [hu, if_false]; exact hi.ph u x
        · intro u hu h0
          rw [hpc u hu] at h0
          simp only [phase, Ne.symm hu, if_false]; exact hi.idle u h0
        · intro u x hx hne _ hst'
          exact absurd hstop hst'
      · have hab := hi.late t e hev (by rw [hp]; simp) hstop
        obtain ⟨k1, k2, k3, k4, k5, k6, k7⟩ := slip_spec hi.legal (by rw [hi.its]; exact hstop) hab hph
          (by rw [hi.its]; exact hreg) (by rw [hi.its]; exact hrun)
        refine Mid.inv hi.reach hs ⟨k1, by rw [k3]; exact hvis, by rw [k2]; exact hi.its, ?_, ?_, ?_, ?_⟩
        · intro c u hb
          rw [hstored, k7, hi.recd c u (hnb ▸ hb)]
        · intro u x
          by_cases hu : u = t
          · subst hu; rw [he, k4]; simp
          · rw [hpc u hu, k5 u hu]; exact hi.ph u x
        · intro u hu h0
          rw [hpc u hu] at h0
          rw [k5 u hu]; exact hi.idle u h0
        · intro u x hx hne _ hst'
          rw [k6]
          by_cases hu : u = t
          · subst hu; rw [he] at hx; cases hx
          · rw [hpc u hu] at hx hne; exact hi.late u x hx hne hst'

theorem Inv.watch {l : List (Nat × Choice ε)} {v h : List (Mark ε)} (hi : Inv tid s v h)
    (hr : s.run true tid l = .to s') : ∃ h', Inv tid s' (watch tid s l v) h' := by
  induction l generalizing s v h with
  | nil => cases hr; exact ⟨h, hi⟩
  | cons a l ih =>
    obtain ⟨t, c⟩ := a
    unfold St.run at hr
    split at hr
    · rename_i x hx
      obtain ⟨h1, hi1⟩ := hi.step hx
      obtain ⟨h2, hi2⟩ := ih hi1 hr
      exact ⟨h2, by simpa only [Lin.watch, hx] using hi2⟩
    · cases hr
    · cases hr

/-- The calls of a thread take effect one after the other, each once. -/
theorem legal_calls {h : List (Mark ε)} (hl : Legal h) (t : Nat) :
    asked t (visible h) = effects t h ++ (phase t h).waiting := by
  induction h with
  | nil => rfl
  | cons m h ih =>
    cases m with
    | item i => exact ih hl.2
    | call u e =>
      simp only [visible, asked, effects, phase]
      by_cases hu : u = t
      · subst hu
        have := ih hl.2
        rw [hl.1] at this
        simp [this, Phase.waiting]
      · simp only [hu, if_false]; exact ih hl.2
    | ret u =>
      simp only [visible, asked, effects, phase]
      by_cases hu : u = t
      · subst hu
        have := ih hl.2
        rw [hl.1] at this
        simp [this, Phase.waiting]
      · simp only [hu, if_false]; exact ih hl.2
    | effect u e b =>
      have h2 : Legal h := by cases b <;> exact hl.2
      have h1 : phase u h = .called e := by cases b <;> exact hl.1.1
      simp only [visible, effects, phase]
      by_cases hu : u = t
      · subst hu
        have := ih h2
        rw [h1] at this
        simp [this, Phase.waiting]
      · simp only [hu, if_false]; exact ih h2

/-! ### C96 -/

/-- C96: whatever the threads do and however their steps interleave, what is seen of the log from outside
is what is seen of a recorder whose calls each take effect at one moment between the call and the return. The
runs hold the events that take effect in them, in that order; the calls of a thread take effect in the order in
which it makes them, each once; and a call that has returned has taken effect. -/
theorem C96_linearizable {l : List (Nat × Choice ε)} (hr : (St.init : St ε).run true tid l = .to s) :
    ∃ h : List (Mark ε), Legal h ∧ visible h = watch tid St.init l [] ∧ items h = s.hist ∧
      (∀ b t, b < s.nextBuf → recorded b t h = s.stored b t) ∧
      ∀ t, asked t (watch tid St.init l []) = effects t h ++ (phase t h).waiting ∧
        (busy t (watch tid St.init l []) = false → phase t h = .idle) := by
  obtain ⟨h, hi⟩ := Inv.init.watch hr
  refine ⟨h, hi.legal, hi.vis, hi.its, hi.recd, fun t => ?_⟩
  rw [← hi.vis]
  refine ⟨legal_calls hi.legal t, fun hb => ?_⟩
  by_contra hne
  rw [(legal_busy hi.legal t).2 hne] at hb
  cases hb

/-- A thread that asked `enabled` before a stop cleared it, and stores its event afterwards. -/
def late : List (Nat × Choice Nat) :=
  registers 1 ['a'] ++ starts Clock.plain2 ++ logs 1 5 11 ++ logs 1 6 4 ++
  [(0, .lock), (0, .stop false), (0, .step), (0, .step)] ++ steps 1 2

/-- Here the effect of the second call comes to lie before the stop, although the event is stored after it. -/
example : ∃ s : St Nat, (St.init : St Nat).run true (· + 100) late = .to s ∧ s.stored 0 1 = [5, 6] ∧
    watch (· + 100) St.init late [] = [.ret 1, .item (.stop false none), .call 1 6, .ret 1, .call 1 5,
      .item (.run 0 Clock.plain2), .item (.configure Clock.plain2), .item (.regOk 1 ['a'])] ∧
    Legal [.ret 1, .item (.stop false none), .effect 1 6 (some 0), .call 1 6, .ret 1, .effect 1 5 (some 0), .call 1 5,
      .item (.run 0 Clock.plain2), .item (.configure Clock.plain2), .item (.regOk 1 ['a'])] ∧
    ¬ Legal [.ret 1, .effect 1 6 (some 0), .item (.stop false none), .call 1 6, .ret 1, .effect 1 5 (some 0), .call 1 5,
      .item (.run 0 Clock.plain2), .item (.configure Clock.plain2), .item (.regOk 1 ['a'])] := by
  refine ⟨_, rfl, by decide +kernel, by decide +kernel, ?_, ?_⟩
  · simp [Legal, phase, items, on, isReg, lastRun, ItemOk, stopping, configOf]
  · simp [Legal, items, on]

end Phosphor.Lin
