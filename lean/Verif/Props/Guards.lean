import Verif.Model.Guards
/-
Properties C49 and C50: scoped events and lock guards.
-/
namespace Phosphor

/-- The events among a list of actions. -/
def logsOf (l : List Act) : List Act :=
  l.filter fun a => match a with | .log .. => true | _ => false

/-- The clock readings among a list of actions. -/
def readingsOf (l : List Act) : List Act :=
  l.filter fun a => match a with | .now _ => true | _ => false

/-- The operations on the mutex `m` among a list of actions. -/
def lockOpsOf (m : BitVec 64) (l : List Act) : List Act :=
  l.filter fun a => match a with
    | .lock m' | .unlock m' | .lockFailed m' => m' == m
    | _ => false

/-- The difference of the two readings fits a signed 64-bit count; true for any two readings of
a clock that starts at 0 or later. -/
def Fits (t t' : Int) : Prop := -2 ^ 63 ≤ t' - t ∧ t' - t < 2 ^ 63

theorem durSub_ok {t t' : Int} (h : Fits t t') : durSub t' t = .ok (t' - t) := by
  simp only [durSub, Fits] at *; rw [if_pos h]

theorem Fits.of_nonneg {t t' : Int} (h0 : 0 ≤ t) (h0' : 0 ≤ t') (h : t < 2 ^ 63)
    (h' : t' < 2 ^ 63) : Fits t t' := by
  unfold Fits; omega

/-- The actions of a run that ends normally. -/
def actsOf : Res World → Option (List Act)
  | .ok w => some w.acts
  | _ => none

/-! ### C49 -/

/-- C49: with the category enabled at entry, a scope whose body does `bodyActs` performs, in
this order: one clock reading (`t0`), the body, one clock reading (`t1`), and one event with
the entry time `t0` and the duration `t1 - t0`. Nothing in the statement depends on the
category after entry. -/
theorem C49_enabled (tpi : TracepointInfo) (a1 a2 : CVal) (body : World → Res World)
    (w w2 : World) (bodyActs : List Act) (t0 t1 : Int)
    (ht0 : w.clock w.reads = t0)
    (hb : body { w with reads := w.reads + 1, acts := w.acts ++ [.now t0] } = .ok w2)
    (hacts : w2.acts = w.acts ++ [.now t0] ++ bodyActs)
    (ht1 : w2.clock w2.reads = t1) (hfit : Fits t0 t1) :
    ∃ w3, inScope tpi true a1 a2 body w = .ok w3 ∧
      w3.acts = w.acts ++ [.now t0] ++ bodyActs ++
        [.now t1, .log tpi t0 (t1 - t0) a1.asArgument a2.asArgument] := by
  subst ht0; subst ht1
  simp only [inScope, ScopedGuard.ctor, ScopedGuard.dtor, World.now, if_true, hb]
  simp only [bind, Res.bind, durSub_ok hfit, World.act]
  exact ⟨_, rfl, by simp [hacts]⟩

/-- C49: with the category disabled at entry, the scope is its body: no event, no clock
reading, nothing. -/
theorem C49_disabled (tpi : TracepointInfo) (a1 a2 : CVal) (body : World → Res World)
    (w : World) : inScope tpi false a1 a2 body w = body w := by
  simp only [inScope, ScopedGuard.ctor, ScopedGuard.dtor, Bool.false_eq_true, if_false]
  cases h : body w <;> simp [bind, Res.bind]

/-- C49: the number of events a scope adds is one iff the category is enabled at entry, and it
is a Complete event when the guard was made by one of the `TRACE_EVENT` macros. -/
theorem C49_count (category name n1 n2 : Str) (a1 a2 : CVal) (enabled : Bool)
    (body : World → Res World) (w w3 : World)
    (hbody : ∀ u u', body u = .ok u' → ∃ l, u'.acts = u.acts ++ l ∧ logsOf l = [])
    (h : inScope (traceEventTpi category name n1 a1 n2 a2) enabled a1 a2 body w = .ok w3) :
    ∃ l, w3.acts = w.acts ++ l ∧ (logsOf l).length = (if enabled then 1 else 0) ∧
      ∀ a ∈ logsOf l, ∃ tpi s d x y, a = .log tpi s d x y ∧ tpi.type = .complete ∧
        tpi.category = category ∧ tpi.name = name := by
  cases enabled with
  | false =>
    rw [C49_disabled] at h
    obtain ⟨l, h1, h2⟩ := hbody _ _ h
    exact ⟨l, h1, by simp [h2], by simp [h2]⟩
  | true =>
    simp only [inScope, ScopedGuard.ctor, World.now, if_true] at h
    generalize hw1 : World.mk w.clock (w.reads + 1) (w.acts ++ [Act.now (w.clock w.reads)]) = w1 at h
    cases hb : body w1 with
    | throw e => rw [hb] at h; cases h
    | ub => rw [hb] at h; cases h
    | ok w2 =>
      rw [hb] at h
      obtain ⟨l, h1, h2⟩ := hbody _ _ hb
      simp only [bind, Res.bind, ScopedGuard.dtor, World.now, if_true] at h
      generalize hd : durSub (w2.clock w2.reads) (w.clock w.reads) = d at h
      cases d with
      | throw e => cases h
      | ub => cases h
      | ok d =>
        cases h
        refine ⟨[.now (w.clock w.reads)] ++ l ++ [.now (w2.clock w2.reads), .log
          (traceEventTpi category name n1 a1 n2 a2) (w.clock w.reads) d a1.asArgument
          a2.asArgument], ?_, ?_, ?_⟩
        · simp [World.act, h1, ← hw1]
        · unfold logsOf at *; simp [List.filter_append, h2]
        · unfold logsOf at *
          simp only [List.filter_append, h2]
          intro a ha
          simp at ha
          exact ⟨_, _, _, _, _, ha, rfl, rfl, rfl⟩

/-- C49, nested scopes: when the clock never goes back, the inner event lies inside the outer
one, and is logged before it. -/
theorem C49_nested (tpi tpi' : TracepointInfo) (a1 a2 b1 b2 : CVal) (w : World)
    (hmono : ∀ i, w.clock i ≤ w.clock (i + 1))
    (h0 : ∀ i, 0 ≤ w.clock i ∧ w.clock i < 2 ^ 63) :
    ∃ w3 s d s' d', inScope tpi true a1 a2 (inScope tpi' true b1 b2 .ok) w = .ok w3 ∧
      logsOf w3.acts = logsOf w.acts ++
        [.log tpi' s' d' b1.asArgument b2.asArgument, .log tpi s d a1.asArgument a2.asArgument] ∧
      s ≤ s' ∧ 0 ≤ d' ∧ s' + d' ≤ s + d := by
  have f : ∀ i j, Fits (w.clock i) (w.clock j) := fun i j =>
    Fits.of_nonneg (h0 i).1 (h0 j).1 (h0 i).2 (h0 j).2
  have m0 := hmono w.reads
  have m1 := hmono (w.reads + 1)
  have m2 := hmono (w.reads + 1 + 1)
  simp only [inScope, ScopedGuard.ctor, ScopedGuard.dtor, World.now, if_true, bind, Res.bind,
    durSub_ok (f _ _), World.act]
  refine ⟨_, w.clock w.reads, w.clock (w.reads + 1 + 1 + 1) - w.clock w.reads,
    w.clock (w.reads + 1), w.clock (w.reads + 1 + 1) - w.clock (w.reads + 1), rfl, ?_, m0,
    by omega, by omega⟩
  simp [logsOf, List.filter_append]

/-- Non-vacuity of `C49_enabled`: a scope entered at 5 and left at 12, disabled in between. -/
example : actsOf (inScope (traceEventTpi ['c'] ['n'] [] .none [] .none) true .none .none
      (fun w => .ok (w.act (.other 1))) ⟨fun i => 5 + 7 * i, 0, []⟩)
    = some [.now 5, .other 1, .now 12,
      .log (traceEventTpi ['c'] ['n'] [] .none [] .none) 5 7 .none .none] := by decide

/-! ### C50 -/

/-- What a lock guard logs: both events or none. -/
def guardEvents (tpiWait tpiHeld : TracepointInfo) (m : BitVec 64) (threshold t0 t1 t2 : Int) :
    List Act :=
  if t1 - t0 > threshold ∨ t2 - t1 > threshold then
    [.log tpiWait t0 (t1 - t0) (.word m) .none, .log tpiHeld t1 (t2 - t1) (.word m) .none]
  else []

/-- C50, category enabled at entry: read the clock (`t0`), lock, read the clock (`t1`), body,
unlock, read the clock (`t2`), then the wait event `t0..t1` and the held event `t1..t2`, both
iff one of the two durations exceeds the threshold. -/
theorem C50_enabled (tpiWait tpiHeld : TracepointInfo) (m : BitVec 64) (threshold : Int)
    (body : World → Res World) (w w2 : World) (bodyActs : List Act) (t0 t1 t2 : Int)
    (ht0 : w.clock w.reads = t0) (ht1 : w.clock (w.reads + 1) = t1)
    (hb : body { w with reads := w.reads + 2, acts := w.acts ++ [.now t0, .lock m, .now t1] }
      = .ok w2)
    (hacts : w2.acts = w.acts ++ [.now t0, .lock m, .now t1] ++ bodyActs)
    (ht2 : w2.clock w2.reads = t2) (hf : Fits t0 t1) (hf' : Fits t1 t2) :
    ∃ w3, guarded tpiWait tpiHeld true m threshold true body w = .ok w3 ∧
      w3.acts = w.acts ++ [.now t0, .lock m, .now t1] ++ bodyActs ++ [.unlock m, .now t2] ++
        guardEvents tpiWait tpiHeld m threshold t0 t1 t2 := by
  subst ht0; subst ht1; subst ht2
  simp only [List.append_assoc, List.cons_append, List.nil_append] at hb hacts
  simp only [guarded, MutexGuard.ctor, World.now, World.act, if_true, List.append_assoc,
    List.cons_append, List.nil_append, hb, bind, Res.bind, MutexGuard.dtor, durSub_ok hf,
    durSub_ok hf', guardEvents]
  split
  · exact ⟨_, rfl, by simp [hacts, CVal.asArgument]⟩
  · exact ⟨_, rfl, by simp [hacts]⟩

/-- C50, category disabled at entry: lock, body, unlock; no clock reading and no event. -/
theorem C50_disabled (tpiWait tpiHeld : TracepointInfo) (m : BitVec 64) (threshold : Int)
    (body : World → Res World) (w w2 : World) (bodyActs : List Act)
    (hb : body { w with acts := w.acts ++ [.lock m] } = .ok w2)
    (hacts : w2.acts = w.acts ++ [.lock m] ++ bodyActs) :
    ∃ w3, guarded tpiWait tpiHeld false m threshold true body w = .ok w3 ∧
      w3.acts = w.acts ++ [.lock m] ++ bodyActs ++ [.unlock m] := by
  simp only [guarded, MutexGuard.ctor, World.act, if_true, Bool.false_eq_true, if_false, hb, bind,
    Res.bind, MutexGuard.dtor]
  exact ⟨_, rfl, by simp [hacts]⟩

/-- C50, the lock throws: the body does not run, nothing is unlocked and nothing is logged,
whether or not the category is enabled. -/
theorem C50_lock_throws (tpiWait tpiHeld : TracepointInfo) (enabled : Bool) (m : BitVec 64)
    (threshold : Int) (body : World → Res World) (w : World) :
    ∃ w3 l, guarded tpiWait tpiHeld enabled m threshold false body w = .ok w3 ∧
      w3.acts = w.acts ++ l ∧ lockOpsOf m l = [.lockFailed m] ∧ logsOf l = [] := by
  cases enabled
  · exact ⟨_, [.lockFailed m], rfl, rfl, by simp [lockOpsOf], by simp [logsOf]⟩
  · exact ⟨_, [.now (w.clock w.reads), .lockFailed m], rfl, by simp [World.act],
      by simp [lockOpsOf], by simp [logsOf]⟩

/-- C50: whatever the clock does and whether or not tracing is on, the mutex is locked exactly
once, before the body, and unlocked exactly once, after it (the body not touching this mutex
itself), and either nothing or exactly the two events, after the unlock, are logged. -/
theorem C50_lock_discipline (tpiWait tpiHeld : TracepointInfo) (enabled : Bool) (m : BitVec 64)
    (threshold : Int) (body : World → Res World) (w w3 : World)
    (hbody : ∀ u u', body u = .ok u' → ∃ l, u'.acts = u.acts ++ l ∧ lockOpsOf m l = [])
    (h : guarded tpiWait tpiHeld enabled m threshold true body w = .ok w3) :
    ∃ pre inner post, w3.acts = w.acts ++ (pre ++ .lock m :: inner ++ .unlock m :: post) ∧
      lockOpsOf m (pre ++ inner ++ post) = [] ∧ logsOf pre = [] ∧
      (logsOf post = [] ∨ enabled = true ∧ ∃ s d s' d', logsOf post =
        [.log tpiWait s d (.word m) .none, .log tpiHeld s' d' (.word m) .none] ∧ s' = s + d ∧
        (d > threshold ∨ d' > threshold)) := by
  cases enabled with
  | false =>
    simp only [guarded, MutexGuard.ctor, World.act, if_true, Bool.false_eq_true, if_false] at h
    generalize hw1 : World.mk w.clock w.reads (w.acts ++ [Act.lock m]) = w1 at h
    cases hb : body w1 with
    | throw e => rw [hb] at h; cases h
    | ub => rw [hb] at h; cases h
    | ok w2 =>
      rw [hb] at h
      obtain ⟨l, h1, h2⟩ := hbody _ _ hb
      simp only [bind, Res.bind, MutexGuard.dtor, World.act, Bool.false_eq_true, if_false] at h
      cases h
      refine ⟨[], l, [], by simp [h1, ← hw1], by simpa using h2, rfl, .inl rfl⟩
  | true =>
    simp only [guarded, MutexGuard.ctor, World.act, World.now, if_true] at h
    generalize hw1 : World.mk w.clock _ _ = w1 at h
    cases hb : body w1 with
    | throw e => rw [hb] at h; cases h
    | ub => rw [hb] at h; cases h
    | ok w2 =>
      rw [hb] at h
      obtain ⟨l, h1, h2⟩ := hbody _ _ hb
      simp only [bind, Res.bind, MutexGuard.dtor, World.act, World.now, if_true] at h
      generalize ht0 : w.clock w.reads = t0 at *
      generalize ht1 : w.clock (w.reads + 1) = t1 at *
      generalize ht2 : w2.clock w2.reads = t2 at *
      unfold durSub at h
      by_cases hf : -2 ^ 63 ≤ t1 - t0 ∧ t1 - t0 < 2 ^ 63
      · by_cases hf' : -2 ^ 63 ≤ t2 - t1 ∧ t2 - t1 < 2 ^ 63
        · rw [if_pos hf, if_pos hf'] at h
          dsimp only at h
          split at h
          · rename_i hc
            cases h
            refine ⟨[.now t0], .now t1 :: l, [.now t2, .log tpiWait t0 (t1 - t0) (.word m) .none,
              .log tpiHeld t1 (t2 - t1) (.word m) .none], ?_, ?_, by simp [logsOf], .inr ⟨rfl, t0,
              t1 - t0, t1, t2 - t1, by simp [logsOf], by omega, hc⟩⟩
            · simp [h1, ← hw1, CVal.asArgument]
            · unfold lockOpsOf at *; simp [List.filter_append, h2]
          · cases h
            refine ⟨[.now t0], .now t1 :: l, [.now t2], ?_, ?_, by simp [logsOf],
              .inl (by simp [logsOf])⟩
            · simp [h1, ← hw1]
            · unfold lockOpsOf at *; simp [List.filter_append, h2]
        · rw [if_pos hf, if_neg hf'] at h; cases h
      · rw [if_neg hf] at h; cases h

/-- What the documentation of `TRACE_LOCKGUARD` says ("it will produce the following 2
events", phosphor.h:245-249) does not hold: its threshold is zero and the comparison is strict,
so nothing is logged when the clock does not advance. -/
theorem C50_lockguard_silent (category name : Str) (m : BitVec 64) (t : Int) :
    ∃ w3, guarded (lockWaitTpi category name) (lockHeldTpi category name) true m 0 true .ok
      ⟨fun _ => t, 0, []⟩ = .ok w3 ∧ logsOf w3.acts = [] := by
  have f : Fits t t := by unfold Fits; omega
  simp [guarded, MutexGuard.ctor, World.act, World.now, bind, Res.bind, MutexGuard.dtor,
    durSub_ok f, logsOf]

/-- It does hold whenever the clock advances during the wait or while the lock is held. -/
theorem C50_lockguard_events (category name : Str) (m : BitVec 64) (w : World)
    (h0 : ∀ i, 0 ≤ w.clock i ∧ w.clock i < 2 ^ 63)
    (hadv : w.clock w.reads < w.clock (w.reads + 1) ∨
      w.clock (w.reads + 1) < w.clock (w.reads + 2)) :
    ∃ w3 s d s' d', guarded (lockWaitTpi category name) (lockHeldTpi category name) true m 0 true
        .ok w = .ok w3 ∧ logsOf w3.acts = logsOf w.acts ++
          [.log (lockWaitTpi category name) s d (.word m) .none,
           .log (lockHeldTpi category name) s' d' (.word m) .none] := by
  have f : ∀ i j, Fits (w.clock i) (w.clock j) := fun i j =>
    Fits.of_nonneg (h0 i).1 (h0 j).1 (h0 i).2 (h0 j).2
  have hc : w.clock (w.reads + 1) - w.clock w.reads > 0 ∨
      w.clock (w.reads + 1 + 1) - w.clock (w.reads + 1) > 0 := by
    rcases hadv with h | h
    · left; omega
    · right; have : w.reads + 1 + 1 = w.reads + 2 := rfl
      rw [this]; omega
  simp only [guarded, MutexGuard.ctor, World.act, World.now, if_true, bind, Res.bind,
    MutexGuard.dtor, durSub_ok (f _ _)]
  rw [if_pos hc]
  exact ⟨_, w.clock w.reads, w.clock (w.reads + 1) - w.clock w.reads, w.clock (w.reads + 1),
    w.clock (w.reads + 1 + 1) - w.clock (w.reads + 1), rfl,
    by simp [logsOf, List.filter_append, CVal.asArgument]⟩

/-- Non-vacuity of `C50_enabled`: wait 3, held 8, threshold 7: both are logged. -/
example : actsOf (guarded (lockWaitTpi ['c'] ['n']) (lockHeldTpi ['c'] ['n']) true 64#64 7 true
      (fun w => .ok (w.act (.other 1)))
      ⟨fun i => if i = 0 then 0 else if i = 1 then 3 else 11, 0, []⟩)
    = some [.now 0, .lock 64#64, .now 3, .other 1, .unlock 64#64, .now 11,
      .log (lockWaitTpi ['c'] ['n']) 0 3 (.word 64#64) .none,
      .log (lockHeldTpi ['c'] ['n']) 3 8 (.word 64#64) .none] := by decide

/-- Equal to the threshold is not enough. -/
example : actsOf (guarded (lockWaitTpi ['c'] ['n']) (lockHeldTpi ['c'] ['n']) true 64#64 8 true
      .ok ⟨fun i => if i = 0 then 0 else if i = 1 then 3 else 11, 0, []⟩)
    = some [.now 0, .lock 64#64, .now 3, .unlock 64#64, .now 11] := by decide

end Phosphor
