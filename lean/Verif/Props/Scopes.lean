import Verif.Spec.CallTree
import Verif.Props.Guards
import Mathlib.Tactic.ByContra
/-
C82 and C83: traces of nested code under exceptions, and that tracing does not change the program.
-/
namespace Phosphor.Scopes

/-! ### Lists -/

theorem Balanced.append {l l' : List Act} (h : Balanced l) (h' : Balanced l') : Balanced (l ++ l') := by
  induction h with
  | nil => exact h'
  | other h1 h2 _ ih => exact .other h1 h2 ih
  | pair hl _ _ ih =>
    have := Balanced.pair (m := ‹_›) hl ih
    simpa using this

theorem logsOf_append (l l' : List Act) : logsOf (l ++ l') = logsOf l ++ logsOf l' := by
  simp [logsOf]

theorem own_append (l l' : List Act) : own (l ++ l') = own l ++ own l' := by
  simp [own]

theorem Forest.events_append (f g : Forest) : (f.append g).events = f.events ++ g.events := by
  induction f with
  | nil => rfl
  | node e i a _ ih => simp [Forest.append, Forest.events, ih]

/-! ### The structure of a run -/

/-- The events of `f` have their start and end at readings number `i` up to `j` of the clock, nested
and in order. -/
def Forest.At (clock : Nat → Int) : Forest → Nat → Nat → Prop
  | .nil, i, j => i ≤ j
  | .node e k a, i, j => ∃ x y, i ≤ x ∧ x < y ∧ y < j ∧ e.start = clock x ∧ e.stop = clock y ∧
      k.At clock (x + 1) y ∧ a.At clock y j

theorem Forest.At.le {clock} {f : Forest} {i j : Nat} (h : f.At clock i j) : i ≤ j := by
  cases f with
  | nil => exact h
  | node e k a => obtain ⟨x, y, h1, h2, h3, _⟩ := h; omega

theorem Forest.At.weaken {clock} {f : Forest} : ∀ {i j i' j' : Nat}, f.At clock i j → i' ≤ i → j ≤ j' →
    f.At clock i' j' := by
  induction f with
  | nil => intro i j i' j' h h1 h2; have := Forest.At.le h; simp only [Forest.At]; omega
  | node e k a _ ih =>
    intro i j i' j' h h1 h2
    obtain ⟨x, y, hx, hxy, hy, hs, he, hk, ha⟩ := h
    exact ⟨x, y, by omega, hxy, by omega, hs, he, hk, ih ha (by omega) h2⟩

theorem Forest.At.append {clock} {f g : Forest} : ∀ {i j k : Nat}, f.At clock i j → g.At clock j k →
    (f.append g).At clock i k := by
  induction f with
  | nil => intro i j k h h'; exact h'.weaken h (Nat.le_refl _)
  | node e l a _ ih =>
    intro i j k h h'
    obtain ⟨x, y, hx, hxy, hy, hs, he, hk, ha⟩ := h
    exact ⟨x, y, hx, hxy, by have := h'.le; omega, hs, he, hk, ih ha h'⟩

/-- What `Out` a run ends in. -/
def outcome (raised : Bool) (s : St) : Out := if raised then .raises s else .ends s

/-- Everything C82 and C83 say about the execution of `p` from `s`. -/
structure Good (env : Env) (p : Prog) (s s' : St) (b : Bool) (f : Forest) : Prop where
  run : exec env p s = outcome b s'
  clock : s'.world.clock = s.world.clock
  acts : ∃ l as, s'.world.acts = s.world.acts ++ l ∧ s'.asked = s.asked ++ as ∧
    as = (List.range as.length).map (fun i => env.enabled (s.asked.length + i)) ∧
    Runs p as f b ∧ (logsOf l).Perm (f.events.map Ev.logged) ∧ Balanced l
  times : f.At s.world.clock s.world.reads s'.world.reads
  reads : s'.world.reads ≤ s.world.reads + p.readings

theorem asked_append {env : Env} {n : Nat} {as bs : List Bool}
    (h1 : as = (List.range as.length).map (fun i => env.enabled (n + i)))
    (h2 : bs = (List.range bs.length).map (fun i => env.enabled (n + as.length + i))) :
    as ++ bs = (List.range (as ++ bs).length).map (fun i => env.enabled (n + i)) := by
  rw [List.length_append, List.range_add, List.map_append, ← h1, List.map_map]
  congr 1
  rw [h2]
  simp [Function.comp_def, Nat.add_assoc]

theorem leave_outcome {dtor : World → Res World} {b : Bool} {s : St} {w : World} (h : dtor s.world = .ok w) :
    (outcome b s).leave dtor = outcome b { s with world := w } := by
  cases b <;> simp [outcome, Out.leave, h]

theorem InRange.sub {p q : Prog} {s s' : St} (h : InRange p s) (hc : s'.world.clock = s.world.clock)
    (hr : s'.world.reads + q.readings ≤ s.world.reads + p.readings) : InRange q s' := by
  intro i hi
  rw [hc]
  exact h i (by omega)

theorem InRange.fits {p : Prog} {s : St} (h : InRange p s) {i j : Nat} (hi : i < s.world.reads + p.readings)
    (hj : j < s.world.reads + p.readings) : Fits (s.world.clock i) (s.world.clock j) :=
  Fits.of_nonneg (h i hi).1 (h j hj).1 (h i hi).2 (h j hj).2

theorem good (env : Env) (p : Prog) : ∀ s : St, InRange p s →
    ∃ s' b f, Good env p s s' b f := by
  induction p with
  | other n =>
    intro s _
    exact ⟨_, false, .nil, rfl, rfl, ⟨[.other n], [], rfl, by simp, by simp, .other n, by simp [logsOf, Forest.events],
      .other (by simp) (by simp) .nil⟩, Nat.le_refl _, Nat.le_refl _⟩
  | raise =>
    intro s _
    exact ⟨s, true, .nil, rfl, rfl, ⟨[], [], by simp, by simp, by simp, .raise, by simp [logsOf, Forest.events],
      .nil⟩, Nat.le_refl _, Nat.le_refl _⟩
  | seq p q ihp ihq =>
    intro s hc
    obtain ⟨s1, b, f, g1⟩ := ihp s (hc.sub (q := p) rfl (by simp only [Prog.readings]; omega))
    obtain ⟨l1, as, ha, hq, hen, hr, hl, hb⟩ := g1.acts
    have hr1 := g1.reads
    cases b with
    | true =>
      exact ⟨s1, true, f, by simp only [exec, g1.run, outcome, if_true], g1.clock,
        ⟨l1, as, ha, hq, hen, .seqRaise hr, hl, hb⟩, g1.times, by simp only [Prog.readings]; omega⟩
    | false =>
      obtain ⟨s2, b, g, g2⟩ := ihq s1 (hc.sub g1.clock (by simp only [Prog.readings]; omega))
      obtain ⟨l2, bs, ha', hq', hen', hr', hl', hb'⟩ := g2.acts
      have hr2 := g2.reads
      refine ⟨s2, b, f.append g, ?_, by rw [g2.clock, g1.clock], ⟨l1 ++ l2, as ++ bs, by rw [ha', ha, List.append_assoc],
        by rw [hq', hq, List.append_assoc], ?_, .seq hr hr', ?_, hb.append hb'⟩, ?_, by simp only [Prog.readings]; omega⟩
      · simp only [exec, g1.run, outcome, Bool.false_eq_true, if_false]; exact g2.run
      · exact asked_append hen (by rw [hq, List.length_append] at hen'; exact hen')
      · rw [logsOf_append, Forest.events_append, List.map_append]; exact hl.append hl'
      · exact g1.times.append (by have := g2.times; rw [g1.clock] at this; exact this)
  | attempt p q ihp ihq =>
    intro s hc
    obtain ⟨s1, b, f, g1⟩ := ihp s (hc.sub (q := p) rfl (by simp only [Prog.readings]; omega))
    obtain ⟨l1, as, ha, hq, hen, hr, hl, hb⟩ := g1.acts
    have hr1 := g1.reads
    cases b with
    | false =>
      exact ⟨s1, false, f, by simp only [exec, g1.run, outcome, Bool.false_eq_true, if_false], g1.clock,
        ⟨l1, as, ha, hq, hen, .attempt hr, hl, hb⟩, g1.times, by simp only [Prog.readings]; omega⟩
    | true =>
      obtain ⟨s2, b, g, g2⟩ := ihq s1 (hc.sub g1.clock (by simp only [Prog.readings]; omega))
      obtain ⟨l2, bs, ha', hq', hen', hr', hl', hb'⟩ := g2.acts
      have hr2 := g2.reads
      refine ⟨s2, b, f.append g, ?_, by rw [g2.clock, g1.clock], ⟨l1 ++ l2, as ++ bs, by rw [ha', ha, List.append_assoc],
        by rw [hq', hq, List.append_assoc], ?_, .caught hr hr', ?_, hb.append hb'⟩, ?_, by simp only [Prog.readings]; omega⟩
      · simp only [exec, g1.run, outcome, if_true]; exact g2.run
      · exact asked_append hen (by rw [hq, List.length_append] at hen'; exact hen')
      · rw [logsOf_append, Forest.events_append, List.map_append]; exact hl.append hl'
      · exact g1.times.append (by have := g2.times; rw [g1.clock] at this; exact this)
  | scope tpi a1 a2 p ih =>
    intro s hc
    cases hon : env.enabled s.asked.length with
    | false =>
      obtain ⟨s1, b, f, g⟩ := ih { s with asked := s.asked ++ [false] } (hc.sub rfl (by simp only [Prog.readings]; omega))
      obtain ⟨l, as, ha, hq, hen, hr, hl, hb⟩ := g.acts
      have hr1 := g.reads
      refine ⟨s1, b, f, ?_, g.clock, ⟨l, false :: as, ha, by simpa using hq, ?_, .scopeOff hr, hl, hb⟩, g.times,
        by simp only [Prog.readings]; simp only at hr1; omega⟩
      · simp only [exec, hon, ScopedGuard.ctor, Bool.false_eq_true, if_false, g.run]
        exact leave_outcome (by simp [ScopedGuard.dtor])
      · exact asked_append (as := [false]) (by simp [hon]) (by simpa using hen)
    | true =>
      obtain ⟨s1, b, f, g⟩ := ih { s with world := s.world.now.2, asked := s.asked ++ [true] }
        (hc.sub rfl (by simp only [Prog.readings, World.now]; omega))
      obtain ⟨l, as, ha, hq, hen, hr, hl, hb⟩ := g.acts
      have hclk : s1.world.clock = s.world.clock := g.clock
      have hr1 := g.reads
      simp only [World.now] at hr1
      refine ⟨{ s1 with world := (s1.world.now.2).act (.log tpi (s.world.clock s.world.reads)
          (s.world.clock s1.world.reads - s.world.clock s.world.reads) a1.asArgument a2.asArgument) }, b,
        .node ⟨tpi, s.world.clock s.world.reads, s.world.clock s1.world.reads - s.world.clock s.world.reads,
          a1.asArgument, a2.asArgument⟩ f .nil, ?_, hclk,
        ⟨.now (s.world.clock s.world.reads) :: (l ++ [.now (s.world.clock s1.world.reads),
          .log tpi (s.world.clock s.world.reads) (s.world.clock s1.world.reads - s.world.clock s.world.reads)
            a1.asArgument a2.asArgument]), true :: as, ?_, by simpa using hq, ?_, .scopeOn hr, ?_, ?_⟩, ?_,
        by simp only [Prog.readings, World.act, World.now]; omega⟩
      · simp only [exec, hon, ScopedGuard.ctor, if_true]
        rw [show (s.world.now : Int × World) = (s.world.clock s.world.reads, s.world.now.2) from rfl]
        simp only [g.run]
        apply leave_outcome
        simp only [ScopedGuard.dtor, if_true, World.now, hclk, bind, Res.bind, 
          durSub_ok (hc.fits (i := s.world.reads) (j := s1.world.reads) (by simp only [Prog.readings]; omega)
            (by simp only [Prog.readings]; omega))]
      · simp [World.act, World.now, ha, hclk]
      · exact asked_append (as := [true]) (by simp [hon]) (by simpa using hen)
      · have : logsOf (.now (s.world.clock s.world.reads) :: (l ++ [.now (s.world.clock s1.world.reads),
          .log tpi (s.world.clock s.world.reads) (s.world.clock s1.world.reads - s.world.clock s.world.reads)
            a1.asArgument a2.asArgument])) = logsOf l ++ [.log tpi (s.world.clock s.world.reads)
              (s.world.clock s1.world.reads - s.world.clock s.world.reads) a1.asArgument a2.asArgument] := by
          simp [logsOf]
        rw [this]
        refine List.perm_append_comm.trans ?_
        simp only [Forest.events, List.map_cons, List.append_nil, List.singleton_append, Ev.logged]
        exact List.Perm.cons _ hl
      · exact .other (by simp) (by simp) (hb.append (.other (by simp) (by simp) (.other (by simp) (by simp) .nil)))
      · have ht := g.times
        have hle := ht.le
        simp only [World.now] at ht hle
        refine ⟨s.world.reads, s1.world.reads, Nat.le_refl _, by omega, ?_, rfl, ?_, ht, ?_⟩
        · simp [World.act, World.now]
        · simp only [Ev.stop]; omega
        · simp [Forest.At, World.act, World.now]
  | locked w h m th p ih =>
    intro s hc
    cases hok : env.lockOk s.locks with
    | false =>
      cases hon : env.enabled s.asked.length with
      | false =>
        refine ⟨⟨s.world.act (.lockFailed m), s.asked ++ [false], s.locks + 1⟩, true, .nil, ?_, rfl,
          ⟨[.lockFailed m], [false], rfl, rfl, by simp [hon], .lockFails, by simp [logsOf, Forest.events],
            .other (by simp) (by simp) .nil⟩, Nat.le_refl _, by simp only [Prog.readings, World.act]; omega⟩
        simp [exec, hok, hon, MutexGuard.ctor, outcome]
      | true =>
        refine ⟨⟨s.world.now.2.act (.lockFailed m), s.asked ++ [true], s.locks + 1⟩, true, .nil, ?_, rfl,
          ⟨[.now (s.world.clock s.world.reads), .lockFailed m], [true], by simp [World.act, World.now], rfl, by simp [hon],
            .lockFails, by simp [logsOf, Forest.events],
            .other (by simp) (by simp) (.other (by simp) (by simp) .nil)⟩, ?_,
          by simp only [Prog.readings, World.act, World.now]; omega⟩
        · simp [exec, hok, hon, MutexGuard.ctor, outcome]
        · simp [Forest.At, World.act, World.now]
    | true =>
      cases hon : env.enabled s.asked.length with
      | false =>
        obtain ⟨s1, b, f, g⟩ := ih ⟨s.world.act (.lock m), s.asked ++ [false], s.locks + 1⟩
          (hc.sub rfl (by simp only [Prog.readings, World.act]; omega))
        obtain ⟨l, as, ha, hq, hen, hr, hl, hb⟩ := g.acts
        have hr1 := g.reads
        simp only [World.act] at hr1
        refine ⟨{ s1 with world := s1.world.act (.unlock m) }, b, f, ?_, g.clock,
          ⟨.lock m :: (l ++ [.unlock m]), false :: as, ?_, by simpa using hq, ?_, .lockOff hr, ?_, .pair hb .nil⟩, g.times,
          by simp only [Prog.readings, World.act]; omega⟩
        · simp only [exec, hok, hon, MutexGuard.ctor, Bool.false_eq_true, if_false, if_true, g.run]
          exact leave_outcome (by simp [MutexGuard.dtor])
        · simp [World.act, ha]
        · exact asked_append (as := [false]) (by simp [hon]) (by simpa using hen)
        · have : logsOf (.lock m :: (l ++ [.unlock m])) = logsOf l := by simp [logsOf]
          rw [this]; exact hl
      | true =>
        obtain ⟨s1, b, f, g⟩ := ih ⟨(s.world.now.2.act (.lock m)).now.2, s.asked ++ [true], s.locks + 1⟩
          (hc.sub rfl (by simp only [Prog.readings, World.act, World.now]; omega))
        obtain ⟨l, as, ha, hq, hen, hr, hl, hb⟩ := g.acts
        have hclk : s1.world.clock = s.world.clock := g.clock
        have ht := g.times
        have hle := ht.le
        have hr1 := g.reads
        simp only [World.now, World.act] at ht hle hr1
        generalize e0 : s.world.clock s.world.reads = t0
        generalize e1 : s.world.clock (s.world.reads + 1) = t1
        generalize e2 : s.world.clock s1.world.reads = t2
        have f01 : Fits t0 t1 := by
          rw [← e0, ← e1]
          exact hc.fits (by simp only [Prog.readings]; omega) (by simp only [Prog.readings]; omega)
        have f12 : Fits t1 t2 := by
          rw [← e1, ← e2]
          exact hc.fits (by simp only [Prog.readings]; omega) (by simp only [Prog.readings]; omega)
        have ha' : s1.world.acts = s.world.acts ++ ([.now t0, .lock m, .now t1] ++ l) := by
          rw [ha]; simp [World.act, World.now, e0, e1]
        have hrun : exec env (.locked w h m th p) s = (outcome b s1).leave
            (MutexGuard.dtor ⟨w, h, true, m, th, t0, t1⟩) := by
          simp only [exec, hok, hon, MutexGuard.ctor, if_true]
          rw [← g.run, ← e0, ← e1]; rfl
        by_cases hth : t1 - t0 > th ∨ t2 - t1 > th
        · refine ⟨{ s1 with world := { s1.world with reads := s1.world.reads + 1, acts := s1.world.acts ++
              [.unlock m, .now t2, .log w t0 (t1 - t0) (.word m) .none, .log h t1 (t2 - t1) (.word m) .none] } }, b,
            .node ⟨w, t0, t1 - t0, .word m, .none⟩ .nil
              (.node ⟨h, t0 + (t1 - t0), t2 - t1, .word m, .none⟩ f .nil), ?_, hclk,
            ⟨[.now t0, .lock m, .now t1] ++ l ++
              [.unlock m, .now t2, .log w t0 (t1 - t0) (.word m) .none, .log h t1 (t2 - t1) (.word m) .none],
              true :: as, ?_, by simpa using hq, ?_, .lockOn hr hth, ?_, ?_⟩, ?_,
            by simp only [Prog.readings]; omega⟩
          · rw [hrun]
            apply leave_outcome
            simp only [MutexGuard.dtor, if_true, World.now, World.act, hclk, e2, bind, Res.bind, durSub_ok f01,
              durSub_ok f12, if_pos hth, CVal.asArgument]
            simp
          · simp [ha']
          · exact asked_append (as := [true]) (by simp [hon]) (by simpa using hen)
          · have : logsOf ([.now t0, .lock m, .now t1] ++ l ++
              [.unlock m, .now t2, .log w t0 (t1 - t0) (.word m) .none, .log h t1 (t2 - t1) (.word m) .none]) =
              logsOf l ++ [.log w t0 (t1 - t0) (.word m) .none, .log h t1 (t2 - t1) (.word m) .none] := by
              simp [logsOf]
            rw [this]
            refine List.perm_append_comm.trans ?_
            simp only [Forest.events, List.map_cons, List.append_nil, List.nil_append, Ev.logged, List.cons_append]
            rw [show t0 + (t1 - t0) = t1 by omega]
            exact List.Perm.cons _ (List.Perm.cons _ hl)
          · have h1 : Balanced (.lock m :: ((.now t1 :: l) ++ .unlock m :: [.now t2, .log w t0 (t1 - t0) (.word m) .none,
                .log h t1 (t2 - t1) (.word m) .none])) :=
              .pair (.other (by simp) (by simp) hb) (.other (by simp) (by simp) (.other (by simp) (by simp)
                (.other (by simp) (by simp) .nil)))
            have := Balanced.other (a := .now t0) (by simp) (by simp) h1
            simpa using this
          · have hs : t0 + (t1 - t0) = t1 := by omega
            refine ⟨s.world.reads, s.world.reads + 1, Nat.le_refl _, by omega, by show _ < s1.world.reads + 1; omega,
              e0.symm, ?_, Nat.le_refl _, s.world.reads + 1, s1.world.reads, Nat.le_refl _, by omega, Nat.lt_succ_self _, ?_, ?_,
              ht, Nat.le_succ _⟩
            · simp only [Ev.stop]; omega
            · simp only; omega
            · simp only [Ev.stop]; omega
        · refine ⟨{ s1 with world := { s1.world with reads := s1.world.reads + 1, acts := s1.world.acts ++
              [.unlock m, .now t2] } }, b, f, ?_, hclk,
            ⟨[.now t0, .lock m, .now t1] ++ l ++ [.unlock m, .now t2], true :: as, ?_, by simpa using hq, ?_, .lockShort hr,
              ?_, ?_⟩, ht.weaken (by omega) (Nat.le_succ _), by simp only [Prog.readings]; omega⟩
          · rw [hrun]
            apply leave_outcome
            simp only [MutexGuard.dtor, if_true, World.now, World.act, hclk, e2, bind, Res.bind, durSub_ok f01,
              durSub_ok f12, if_neg hth]
            simp
          · simp [ha']
          · exact asked_append (as := [true]) (by simp [hon]) (by simpa using hen)
          · have : logsOf ([.now t0, .lock m, .now t1] ++ l ++ [.unlock m, .now t2]) = logsOf l := by
              simp [logsOf]
            rw [this]; exact hl
          · have h1 : Balanced (.lock m :: ((.now t1 :: l) ++ .unlock m :: [.now t2])) :=
              .pair (.other (by simp) (by simp) hb) (.other (by simp) (by simp) .nil)
            have := Balanced.other (a := .now t0) (by simp) (by simp) h1
            simpa using this

/-! ### From readings to times -/

theorem mono_le {clock : Nat → Int} {n : Nat} (hm : ∀ i, i + 1 < n → clock i ≤ clock (i + 1)) {i j : Nat}
    (h : i ≤ j) : j < n → clock i ≤ clock j := by
  induction h with
  | refl => intro _; exact Int.le_refl _
  | step _ ih => intro hn; exact Int.le_trans (ih (by omega)) (hm _ hn)

theorem mono_lt {clock : Nat → Int} {n : Nat} (hm : ∀ i, i + 1 < n → clock i < clock (i + 1)) {i j : Nat}
    (h : i < j) : j < n → clock i < clock j := by
  induction h with
  | refl => intro hn; exact hm _ hn
  | step _ ih => intro hn; exact Int.lt_trans (ih (by omega)) (hm _ hn)

theorem Forest.Nested.weaken {f : Forest} : ∀ {lo hi lo' hi' : Int}, f.Nested lo hi → lo' ≤ lo → hi ≤ hi' →
    f.Nested lo' hi' := by
  induction f with
  | nil => intros; trivial
  | node e k a _ ih =>
    intro lo hi lo' hi' h h1 h2
    obtain ⟨hs, hd, he, hk, ha⟩ := h
    exact ⟨by omega, hd, by omega, hk, ih ha (Int.le_refl _) h2⟩

theorem Forest.Strict.weaken {f : Forest} : ∀ {lo hi lo' hi' : Int}, f.Strict lo hi → lo' ≤ lo → hi ≤ hi' →
    f.Strict lo' hi' := by
  induction f with
  | nil => intros; trivial
  | node e k a _ ih =>
    intro lo hi lo' hi' h h1 h2
    obtain ⟨hs, hd, he, hk, ha⟩ := h
    exact ⟨by omega, hd, by omega, hk, ih ha (Int.le_refl _) h2⟩

theorem Forest.At.nested {clock : Nat → Int} {n : Nat} (hm : ∀ i, i + 1 < n → clock i ≤ clock (i + 1))
    {f : Forest} : ∀ {i j : Nat}, j ≤ n → f.At clock i j → f.Nested (clock i) (clock (j - 1)) := by
  induction f with
  | nil => intros; trivial
  | node e k a ihk iha =>
    intro i j hj h
    obtain ⟨x, y, hx, hxy, hy, hs, he, hk, ha⟩ := h
    have h1 := mono_le hm hx (by omega)
    have h2 := mono_le hm (Nat.le_of_lt hxy) (by omega)
    have h3 := mono_le hm (show y ≤ j - 1 by omega) (by omega)
    have h4 := hm x (by omega)
    have h5 := mono_le hm (show y - 1 ≤ y by omega) (by omega)
    exact ⟨by omega, by omega, by omega, (ihk (by omega) hk).weaken (by omega) (by omega), he ▸ iha hj ha⟩

theorem Forest.At.strict {clock : Nat → Int} {n : Nat} (hm : ∀ i, i + 1 < n → clock i < clock (i + 1))
    {f : Forest} : ∀ {i j : Nat}, j ≤ n → f.At clock i j → f.Strict (clock i) (clock (j - 1)) := by
  induction f with
  | nil => intros; trivial
  | node e k a ihk iha =>
    intro i j hj h
    have hw : ∀ i, i + 1 < n → clock i ≤ clock (i + 1) := fun i hi => Int.le_of_lt (hm i hi)
    obtain ⟨x, y, hx, hxy, hy, hs, he, hk, ha⟩ := h
    have h1 := mono_le hw hx (by omega)
    have h2 := mono_lt hm hxy (by omega)
    have h3 := mono_le hw (show y ≤ j - 1 by omega) (by omega)
    have h4 := hm x (by omega)
    have h5 := mono_lt hm (show y - 1 < y by omega) (by omega)
    exact ⟨by omega, by omega, by omega, (ihk (by omega) hk).weaken (by omega) (by omega), he ▸ iha hj ha⟩

/-! ### C82 -/

/-- C82: whatever a thread does in nested traced scopes and lock guards, left normally or by
exceptions, with categories enabled and disabled in between, the events it logs are those of the
scopes it went through while they were enabled, each once; and if the clock does not go back they are
nested in time as the scopes are. -/
theorem C82_tree (env : Env) (p : Prog) (s : St) (hc : InRange p s)
    (hm : Steady p s) :
    ∃ s' raised l as f, exec env p s = (if raised then .raises s' else .ends s') ∧
      s'.world.acts = s.world.acts ++ l ∧ s'.asked = s.asked ++ as ∧
      as = (List.range as.length).map (fun i => env.enabled (s.asked.length + i)) ∧
      Runs p as f raised ∧ (logsOf l).Perm (f.events.map Ev.logged) ∧
      f.Nested (s.world.clock s.world.reads) (s.world.clock (s'.world.reads - 1)) := by
  obtain ⟨s', b, f, g⟩ := good env p s hc
  obtain ⟨l, as, ha, hq, hen, hr, hl, _⟩ := g.acts
  exact ⟨s', b, l, as, f, g.run, ha, hq, hen, hr, hl, g.times.nested hm g.reads⟩

theorem Forest.Strict.mem {f : Forest} : ∀ {lo hi : Int}, f.Strict lo hi → ∀ e ∈ f.events,
    lo ≤ e.start ∧ e.start < e.stop ∧ e.stop ≤ hi := by
  induction f with
  | nil => intro lo hi _ e he; cases he
  | node d k a ihk iha =>
    intro lo hi h e he
    obtain ⟨hs, hd, hh, hk, ha⟩ := h
    simp only [Forest.events, List.mem_cons, List.mem_append] at he
    rcases he with he | he | he
    · subst he; exact ⟨hs, hd, hh⟩
    · have := ihk hk e he; omega
    · have := iha ha e he; omega

/-- With a clock that never shows the same time twice, the events determine the forest. -/
theorem Forest.Strict.unique {f : Forest} : ∀ {g : Forest} {lo hi lo' hi' : Int}, f.Strict lo hi → g.Strict lo' hi' →
    f.events.Perm g.events → f = g := by
  induction f with
  | nil =>
    intro g lo hi lo' hi' _ _ hp
    cases g with
    | nil => rfl
    | node e k a => simp [Forest.events] at hp
  | node e k a ihk iha =>
    intro g lo hi lo' hi' hf hg hp
    cases g with
    | nil => simp [Forest.events] at hp
    | node e' k' a' =>
      obtain ⟨hs, hd, hh, hk, ha⟩ := hf
      obtain ⟨hs', hd', hh', hk', ha'⟩ := hg
      have hmin : ∀ x ∈ (Forest.node e k a).events, x = e ∨ e.start < x.start := by
        intro x hx
        simp only [Forest.events, List.mem_cons, List.mem_append] at hx
        rcases hx with hx | hx | hx
        · exact .inl hx
        · have := hk.mem x hx; exact .inr (by omega)
        · have := ha.mem x hx; exact .inr (by omega)
      have hmin' : ∀ x ∈ (Forest.node e' k' a').events, x = e' ∨ e'.start < x.start := by
        intro x hx
        simp only [Forest.events, List.mem_cons, List.mem_append] at hx
        rcases hx with hx | hx | hx
        · exact .inl hx
        · have := hk'.mem x hx; exact .inr (by omega)
        · have := ha'.mem x hx; exact .inr (by omega)
      have he : e = e' := by
        have h1 := hmin e' (hp.mem_iff.mpr (by simp [Forest.events]))
        have h2 := hmin' e (hp.mem_iff.mp (by simp [Forest.events]))
        rcases h1 with h1 | h1
        · exact h1.symm
        · rcases h2 with h2 | h2
          · exact h2
          · omega
      subst he
      simp only [Forest.events] at hp
      have hp := hp.cons_inv
      have hin : ∀ {k a : Forest}, k.Strict (e.start + 1) (e.stop - 1) → (∃ hi, a.Strict e.stop hi) →
          (k.events ++ a.events).filter (fun x => x.start < e.stop) = k.events ∧
          (k.events ++ a.events).filter (fun x => ¬ x.start < e.stop) = a.events := by
        intro k a hk ⟨hi, ha⟩
        have h1 : ∀ x ∈ k.events, x.start < e.stop := fun x hx => by have := hk.mem x hx; omega
        have h2 : ∀ x ∈ a.events, ¬ x.start < e.stop := fun x hx => by have := ha.mem x hx; omega
        constructor
        · rw [List.filter_append, List.filter_eq_self.mpr (by simpa using h1),
            List.filter_eq_nil_iff.mpr (by simpa using h2), List.append_nil]
        · rw [List.filter_append, List.filter_eq_nil_iff.mpr (by simpa using h1),
            List.filter_eq_self.mpr (by simpa using h2), List.nil_append]
      have hpk := hp.filter (fun x => x.start < e.stop)
      have hpa := hp.filter (fun x => ¬ x.start < e.stop)
      rw [(hin hk ⟨_, ha⟩).1, (hin hk' ⟨_, ha'⟩).1] at hpk
      rw [(hin hk ⟨_, ha⟩).2, (hin hk' ⟨_, ha'⟩).2] at hpa
      rw [ihk hk hk' hpk, iha ha ha' hpa]

theorem perm_of_logged {l l' : List Ev} (h : (l.map Ev.logged).Perm (l'.map Ev.logged)) : l.Perm l' := by
  have key : ∀ l : List Ev, (l.map Ev.logged).filterMap (fun a => match a with
      | .log t s d x y => some (⟨t, s, d, x, y⟩ : Ev)
      | _ => none) = l := by
    intro l
    induction l with
    | nil => rfl
    | cons e l ih => rw [List.map_cons, List.filterMap_cons]; simp only [Ev.logged]; rw [ih]
  have := h.filterMap (fun a => match a with
      | .log t s d x y => some (⟨t, s, d, x, y⟩ : Ev)
      | _ => none)
  rw [key, key] at this
  exact this

/-- C82: if moreover every clock reading is later than the one before, the call tree can be read off
the trace: the events, in whatever order they are exported, determine the tree of scopes. -/
theorem C82_reconstruct (env : Env) (p : Prog) (s : St)
    (hc : InRange p s)
    (hm : Ticking p s) :
    ∃ s' raised l as f, exec env p s = (if raised then .raises s' else .ends s') ∧
      s'.world.acts = s.world.acts ++ l ∧ s'.asked = s.asked ++ as ∧ Runs p as f raised ∧
      (logsOf l).Perm (f.events.map Ev.logged) ∧
      f.Strict (s.world.clock s.world.reads) (s.world.clock (s'.world.reads - 1)) ∧
      ∀ g lo hi, g.Strict lo hi → (logsOf l).Perm (g.events.map Ev.logged) → g = f := by
  obtain ⟨s', b, f, g⟩ := good env p s hc
  obtain ⟨l, as, ha, hq, hen, hr, hl, _⟩ := g.acts
  have hf := g.times.strict hm g.reads
  refine ⟨s', b, l, as, f, g.run, ha, hq, hr, hl, hf, fun g lo hi hg hp => ?_⟩
  refine hg.unique hf ?_
  exact perm_of_logged (hp.symm.trans hl)

/-- C82: mutexes locked by lock guards are unlocked in reverse order, each once, however the scopes
are left, and nothing is undefined. -/
theorem C82_locks (env : Env) (p : Prog) (s : St) (hc : InRange p s) :
    ∃ (s' : St) (raised : Bool) (l : List Act), exec env p s = (if raised then .raises s' else .ends s') ∧
      s'.world.acts = s.world.acts ++ l ∧ Balanced l := by
  obtain ⟨s', b, f, g⟩ := good env p s hc
  obtain ⟨l, as, ha, hq, hen, hr, hl, hb⟩ := g.acts
  exact ⟨s', b, l, g.run, ha, hb⟩

/-! ### C83 -/

theorem reads_le {env : Env} {p : Prog} {s s1 : St} {b : Bool} (h : exec env p s = outcome b s1) (hc : InRange p s) :
    s1.world.reads ≤ s.world.reads + p.readings := by
  obtain ⟨s', b', f, g⟩ := good env p s hc
  have := g.run
  rw [h] at this
  have hs : s1 = s' := by cases b <;> cases b' <;> simp_all [outcome]
  rw [hs]; exact g.reads

theorem transparent (env env' : Env) (hl : env.lockOk = env'.lockOk) (p : Prog) : ∀ s t : St, s.locks = t.locks →
    InRange p s →
    ∃ s' t' b l l', exec env p s = outcome b s' ∧ execOut env' p t = outcome b t' ∧ s'.locks = t'.locks ∧
      s'.world.clock = s.world.clock ∧ s'.world.acts = s.world.acts ++ l ∧ t'.world.acts = t.world.acts ++ l' ∧
      own l = l' := by
  induction p with
  | other n => intro s t h _; exact ⟨_, _, false, [.other n], [.other n], rfl, rfl, h, rfl, rfl, rfl, rfl⟩
  | raise => intro s t h _; exact ⟨s, t, true, [], [], rfl, rfl, h, rfl, by simp, by simp, rfl⟩
  | seq p q ihp ihq =>
    intro s t h hc
    obtain ⟨s1, t1, b, l, l', e1, e2, h1, hk, ha, ha', ho⟩ := ihp s t h (hc.sub (q := p) rfl (by simp only [Prog.readings]; omega))
    cases b with
    | true => exact ⟨s1, t1, true, l, l', by simp [exec, e1, outcome], by simp [execOut, e2, outcome], h1, hk, ha, ha', ho⟩
    | false =>
      obtain ⟨s2, t2, b, m, m', e3, e4, h2, hk', hb, hb', ho'⟩ := ihq s1 t1 h1 (hc.sub hk (by
        have := reads_le e1 (hc.sub rfl (by simp only [Prog.readings]; omega))
        simp only [Prog.readings]; omega))
      refine ⟨s2, t2, b, l ++ m, l' ++ m', ?_, ?_, h2, by rw [hk', hk], by rw [hb, ha, List.append_assoc],
        by rw [hb', ha', List.append_assoc], by rw [own_append, ho, ho']⟩
      · simp only [exec, e1, outcome, Bool.false_eq_true, if_false]; exact e3
      · simp only [execOut, e2, outcome, Bool.false_eq_true, if_false]; exact e4
  | attempt p q ihp ihq =>
    intro s t h hc
    obtain ⟨s1, t1, b, l, l', e1, e2, h1, hk, ha, ha', ho⟩ := ihp s t h (hc.sub (q := p) rfl (by simp only [Prog.readings]; omega))
    cases b with
    | false =>
      exact ⟨s1, t1, false, l, l', by simp [exec, e1, outcome], by simp [execOut, e2, outcome], h1, hk, ha, ha', ho⟩
    | true =>
      obtain ⟨s2, t2, b, m, m', e3, e4, h2, hk', hb, hb', ho'⟩ := ihq s1 t1 h1 (hc.sub hk (by
        have := reads_le e1 (hc.sub rfl (by simp only [Prog.readings]; omega))
        simp only [Prog.readings]; omega))
      refine ⟨s2, t2, b, l ++ m, l' ++ m', ?_, ?_, h2, by rw [hk', hk], by rw [hb, ha, List.append_assoc],
        by rw [hb', ha', List.append_assoc], by rw [own_append, ho, ho']⟩
      · simp only [exec, e1, outcome, if_true]; exact e3
      · simp only [execOut, e2, outcome, if_true]; exact e4
  | scope tpi a1 a2 p ih =>
    intro s t h hc
    cases hon : env.enabled s.asked.length with
    | false =>
      obtain ⟨s1, t1, b, l, l', e1, e2, h1, hk, ha, ha', ho⟩ := ih { s with asked := s.asked ++ [false] } t h
        (hc.sub rfl (by simp only [Prog.readings]; omega))
      refine ⟨s1, t1, b, l, l', ?_, e2, h1, hk, ha, ha', ho⟩
      simp only [exec, hon, ScopedGuard.ctor, Bool.false_eq_true, if_false, e1]
      exact leave_outcome (by simp [ScopedGuard.dtor])
    | true =>
      obtain ⟨s1, t1, b, l, l', e1, e2, h1, hk, ha, ha', ho⟩ :=
        ih { s with world := s.world.now.2, asked := s.asked ++ [true] } t h
          (hc.sub rfl (by simp only [Prog.readings, World.now]; omega))
      have hr1 := reads_le e1 (hc.sub rfl (by simp only [Prog.readings, World.now]; omega))
      simp only [World.now] at hr1
      have hclk : s1.world.clock = s.world.clock := hk
      refine ⟨{ s1 with world := (s1.world.now.2).act (.log tpi (s.world.clock s.world.reads)
          (s.world.clock s1.world.reads - s.world.clock s.world.reads) a1.asArgument a2.asArgument) }, t1, b,
        .now (s.world.clock s.world.reads) :: (l ++ [.now (s.world.clock s1.world.reads),
          .log tpi (s.world.clock s.world.reads) (s.world.clock s1.world.reads - s.world.clock s.world.reads)
            a1.asArgument a2.asArgument]), l', ?_, e2, h1, hclk, ?_, ha', ?_⟩
      · simp only [exec, hon, ScopedGuard.ctor, if_true]
        rw [show (s.world.now : Int × World) = (s.world.clock s.world.reads, s.world.now.2) from rfl]
        simp only [e1]
        apply leave_outcome
        simp only [ScopedGuard.dtor, if_true, World.now, hclk, bind, Res.bind, 
          durSub_ok (hc.fits (i := s.world.reads) (j := s1.world.reads) (by simp only [Prog.readings]; omega)
            (by simp only [Prog.readings]; omega))]
      · simp [World.act, World.now, ha, hclk]
      · rw [← ho]; simp [own]
  | locked w x m th p ih =>
    intro s t h hc
    have hok' : env'.lockOk t.locks = env.lockOk s.locks := by rw [← hl, h]
    cases hok : env.lockOk s.locks with
    | false =>
      rw [hok] at hok'
      cases hon : env.enabled s.asked.length with
      | false =>
        refine ⟨⟨s.world.act (.lockFailed m), s.asked ++ [false], s.locks + 1⟩,
          { t with world := t.world.act (.lockFailed m), locks := t.locks + 1 }, true, [.lockFailed m], [.lockFailed m],
          ?_, ?_, by simp [h], rfl, rfl, rfl, rfl⟩
        · simp [exec, hok, hon, MutexGuard.ctor, outcome]
        · simp [execOut, hok', outcome]
      | true =>
        refine ⟨⟨s.world.now.2.act (.lockFailed m), s.asked ++ [true], s.locks + 1⟩,
          { t with world := t.world.act (.lockFailed m), locks := t.locks + 1 }, true,
          [.now (s.world.clock s.world.reads), .lockFailed m], [.lockFailed m],
          ?_, ?_, by simp [h], rfl, by simp [World.act, World.now], rfl, rfl⟩
        · simp [exec, hok, hon, MutexGuard.ctor, outcome]
        · simp [execOut, hok', outcome]
    | true =>
      rw [hok] at hok'
      have hout : ∀ (t1 : St) b, execOut env' p { t with world := t.world.act (.lock m), locks := t.locks + 1 } =
          outcome b t1 → execOut env' (.locked w x m th p) t =
            outcome b { t1 with world := t1.world.act (.unlock m) } := by
        intro t1 b e
        simp only [execOut, hok', if_true, e]
        exact leave_outcome rfl
      cases hon : env.enabled s.asked.length with
      | false =>
        obtain ⟨s1, t1, b, l, l', e1, e2, h1, hk, ha, ha', ho⟩ :=
          ih ⟨s.world.act (.lock m), s.asked ++ [false], s.locks + 1⟩
            { t with world := t.world.act (.lock m), locks := t.locks + 1 } (by simp [h])
            (hc.sub rfl (by simp only [Prog.readings, World.act]; omega))
        refine ⟨{ s1 with world := s1.world.act (.unlock m) }, { t1 with world := t1.world.act (.unlock m) }, b,
          .lock m :: (l ++ [.unlock m]), .lock m :: (l' ++ [.unlock m]), ?_, hout t1 b e2, h1, hk, ?_, ?_, ?_⟩
        · simp only [exec, hok, hon, MutexGuard.ctor, Bool.false_eq_true, if_false, if_true, e1]
          exact leave_outcome (by simp [MutexGuard.dtor])
        · simp [World.act, ha]
        · simp [World.act, ha']
        · rw [← ho]; simp [own]
      | true =>
        obtain ⟨s1, t1, b, l, l', e1, e2, h1, hk, ha, ha', ho⟩ :=
          ih ⟨(s.world.now.2.act (.lock m)).now.2, s.asked ++ [true], s.locks + 1⟩
            { t with world := t.world.act (.lock m), locks := t.locks + 1 } (by simp [h])
            (hc.sub rfl (by simp only [Prog.readings, World.act, World.now]; omega))
        have hr1 := reads_le e1 (hc.sub rfl (by simp only [Prog.readings, World.act, World.now]; omega))
        simp only [World.now, World.act] at hr1
        have hclk : s1.world.clock = s.world.clock := hk
        generalize c0 : s.world.clock s.world.reads = t0
        generalize c1 : s.world.clock (s.world.reads + 1) = u1
        generalize c2 : s.world.clock s1.world.reads = t2
        have f01 : Fits t0 u1 := by
          rw [← c0, ← c1]
          exact hc.fits (by simp only [Prog.readings]; omega) (by simp only [Prog.readings]; omega)
        have f12 : Fits u1 t2 := by
          rw [← c1, ← c2]
          exact hc.fits (by simp only [Prog.readings]; omega) (by simp only [Prog.readings]; omega)
        have ha1 : s1.world.acts = s.world.acts ++ ([.now t0, .lock m, .now u1] ++ l) := by
          rw [ha]; simp [World.act, World.now, c0, c1]
        have hrun : exec env (.locked w x m th p) s = (outcome b s1).leave
            (MutexGuard.dtor ⟨w, x, true, m, th, t0, u1⟩) := by
          simp only [exec, hok, hon, MutexGuard.ctor, if_true]
          rw [← e1, ← c0, ← c1]; rfl
        have hlogs : ∃ logs, own logs = [] ∧ MutexGuard.dtor ⟨w, x, true, m, th, t0, u1⟩ s1.world =
            .ok { s1.world with reads := s1.world.reads + 1, acts := s1.world.acts ++ .unlock m :: .now t2 :: logs } := by
          by_cases hth : u1 - t0 > th ∨ t2 - u1 > th
          · refine ⟨[.log w t0 (u1 - t0) (.word m) .none, .log x u1 (t2 - u1) (.word m) .none], rfl, ?_⟩
            simp only [MutexGuard.dtor, if_true, World.now, World.act, hclk, c2, bind, Res.bind, durSub_ok f01,
              durSub_ok f12, if_pos hth, CVal.asArgument]
            simp
          · refine ⟨[], rfl, ?_⟩
            simp only [MutexGuard.dtor, if_true, World.now, World.act, hclk, c2, bind, Res.bind, durSub_ok f01,
              durSub_ok f12, if_neg hth]
            simp
        obtain ⟨logs, hlo, hd⟩ := hlogs
        refine ⟨_, { t1 with world := t1.world.act (.unlock m) }, b,
          [.now t0, .lock m, .now u1] ++ l ++ .unlock m :: .now t2 :: logs, .lock m :: (l' ++ [.unlock m]),
          hrun.trans (leave_outcome hd), hout t1 b e2, h1, hclk, ?_, ?_, ?_⟩
        · simp [ha1]
        · simp [World.act, ha']
        · rw [← ho]
          have : own ([.now t0, .lock m, .now u1] ++ l ++ .unlock m :: .now t2 :: logs) =
              .lock m :: (own l ++ .unlock m :: own logs) := by simp [own]
          rw [this, hlo]

/-- C83: tracing does not change the program. Whatever categories are enabled when, a program does
the same actions and the same operations on its mutexes, in the same order, and ends in the same way,
as it does compiled with `PHOSPHOR_DISABLED`; all that tracing adds are clock readings and events. -/
theorem C83_transparent (env : Env) (p : Prog) (s : St) (hc : InRange p s) :
    ∃ (s' t' : St) (raised : Bool) (l l' : List Act),
      exec env p s = (if raised then .raises s' else .ends s') ∧
      execOut env p s = (if raised then .raises t' else .ends t') ∧
      s'.world.acts = s.world.acts ++ l ∧ t'.world.acts = s.world.acts ++ l' ∧ own l = l' := by
  obtain ⟨s', t', b, l, l', h1, h2, _, _, h3, h4, h5⟩ := transparent env env rfl p s s rfl hc
  exact ⟨s', t', b, l, l', h1, h2, h3, h4, h5⟩

/-- C83: and two runs of the program that differ in what is enabled differ in nothing else. -/
theorem C83_same (env env' : Env) (hl : env.lockOk = env'.lockOk) (p : Prog) (s : St)
    (hc : InRange p s) :
    ∃ (s' t' : St) (raised : Bool) (l l' : List Act),
      exec env p s = (if raised then .raises s' else .ends s') ∧
      exec env' p s = (if raised then .raises t' else .ends t') ∧
      s'.world.acts = s.world.acts ++ l ∧ t'.world.acts = s.world.acts ++ l' ∧ own l = own l' := by
  obtain ⟨s1, t1, b, l, l', h1, h2, _, _, h3, h4, h5⟩ := transparent env env rfl p s s rfl hc
  obtain ⟨s2, t2, b', m, m', k1, k2, _, _, k3, k4, k5⟩ := transparent env' env hl.symm p s s rfl hc
  have hb : b = b' ∧ t1 = t2 := by
    rw [h2] at k2
    cases b <;> cases b' <;> simp [outcome] at k2 <;> simp [k2]
  obtain ⟨rfl, rfl⟩ := hb
  refine ⟨s1, s2, b, l, m, h1, k1, h3, k3, ?_⟩
  rw [h5, k5]
  exact List.append_cancel_left (h4.symm.trans k4)

/-! ### Examples -/

/-- A scope in a scope; the inner one holds a mutex and is left by an exception that is caught outside
the outer one. -/
def example1 : Prog :=
  .attempt (.scope (traceEventTpi ['c'] ['a'] [] .none [] .none) .none .none
    (.seq (.locked (lockWaitTpi ['c'] ['l']) (lockHeldTpi ['c'] ['l']) 8#64 0
      (.seq (.scope (traceEventTpi ['c'] ['b'] [] .none [] .none) .none .none .raise) (.other 1)))
      (.other 2))) (.other 3)

/-- The actions of a run that ends without an exception. -/
def actsOfEnd : Out → Option (List Act)
  | .ends s => some s.world.acts
  | _ => none

/-- Its run with a clock that advances by 10 from reading to reading: mutex unlocked, all events
logged, inner before outer, and neither of the actions after the exception done. -/
theorem example1_run : actsOfEnd (exec ⟨fun _ => true, fun _ => true⟩ example1 ⟨⟨fun i => 10 * i, 0, []⟩, [], 0⟩) =
    some [.now 0, .now 10, .lock 8#64, .now 20, .now 30, .now 40,
      .log (traceEventTpi ['c'] ['b'] [] .none [] .none) 30 10 .none .none, .unlock 8#64, .now 50,
      .log (lockWaitTpi ['c'] ['l']) 10 10 (.word 8#64) .none, .log (lockHeldTpi ['c'] ['l']) 20 30 (.word 8#64) .none,
      .now 60, .log (traceEventTpi ['c'] ['a'] [] .none [] .none) 0 60 .none .none, .other 3] := by decide +kernel

/-- The hypotheses of C82 hold for it. -/
example : InRange example1 ⟨⟨fun i => 10 * i, 0, []⟩, [], 0⟩ ∧ Ticking example1 ⟨⟨fun i => 10 * i, 0, []⟩, [], 0⟩ := by
  constructor
  · intro i hi
    simp only [example1, Prog.readings] at hi
    simp only
    omega
  · intro i hi
    simp only
    omega

/-- The same program compiled out. -/
example : actsOfEnd (execOut ⟨fun _ => true, fun _ => true⟩ example1 ⟨⟨fun i => 10 * i, 0, []⟩, [], 0⟩) =
    some [.lock 8#64, .unlock 8#64, .other 3] := by decide +kernel

end Phosphor.Scopes
