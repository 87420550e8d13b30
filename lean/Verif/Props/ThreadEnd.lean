import Verif.Proof.ThreadEnd
/-
C81: threads may end while the log is in use.
-/
namespace Phosphor.TLog
variable {ε : Type} {tid : Nat → Nat} {pol : Bool} {s s' : Life ε} {t u : Nat}

theorem Life.next_log {c : TLog.Choice ε} (h : s.next pol tid t (.log c) = .to s') :
    s.ended t = false ∧ (∀ u, s.log.touches t c = some u → s.ended u = false) ∧ s'.ended = s.ended ∧
    s.log.next pol tid t c = .to s'.log := by
  simp only [Life.next] at h
  split at h
  · cases h
  · rename_i h1
    split at h
    · cases h
    · rename_i h2
      split at h
      · rename_i l hl
        cases h
        refine ⟨by simpa using h1, fun u hu => ?_, rfl, hl⟩
        rw [hu] at h2
        simpa using h2
      · cases h
      · cases h

theorem Life.next_finish (h : s.next pol tid t .finish = .to s') :
    s.ended t = false ∧ s.log.pc t = .idle ∧ s' = { s with ended := setf s.ended t true } := by
  simp only [Life.next] at h
  split at h
  · rename_i hh
    cases h
    exact ⟨hh.1, isIdle_iff.1 hh.2, rfl⟩
  · cases h

/-- The log alone behaves as in Model/TraceLog: every theorem about it applies. -/
theorem Life.Reachable.log (h : Life.Reachable pol tid s) : TLog.Reachable pol tid s.log := by
  induction h with
  | init => exact .init
  | @step s s' t c hr hs ih =>
    cases c with
    | log c => exact .step ih (Life.next_log hs).2.2.2
    | finish => rw [(Life.next_finish hs).2.2]; exact ih

theorem Life.Reachable.idle (h : Life.Reachable pol tid s) (hu : s.ended u = true) : s.log.pc u = .idle := by
  induction h with
  | init => cases hu
  | @step s s' t c hr hs ih =>
    cases c with
    | log c =>
      obtain ⟨h1, -, h2, h3⟩ := Life.next_log hs
      rw [h2] at hu
      have hne : u ≠ t := by rintro rfl; rw [h1] at hu; cases hu
      rw [next_pc h3 hne]
      exact ih hu
    | finish =>
      obtain ⟨h1, h2, rfl⟩ := Life.next_finish hs
      by_cases he : u = t
      · subst he; exact h2
      · exact ih (by simpa [setf, he] using hu)

theorem touches_cases {l : St ε} {c : Choice ε} (h : l.touches t c = some u) : u = t ∨ u ∈ (l.pc t).evictees := by
  unfold St.touches at h
  split at h
  case h_1 hp => cases h; right; rw [hp]; exact List.mem_cons_self ..
  case h_2 hp => cases h; right; rw [hp]; exact List.mem_cons_self ..
  case h_3 hp => cases h; right; rw [hp]; exact List.mem_cons_self ..
  case h_4 hp => cases h; right; rw [hp]; exact List.mem_cons_self ..
  case h_5 hp => cases h; right; rw [hp]; exact List.mem_cons_self ..
  all_goals first
    | (cases h; left; rfl)
    | cases h

/-- C81: a step accesses the tenant of a thread that has ended only if that thread ended without
deregistering. -/
theorem C81_dangling_partial (h : Life.Reachable pol tid s) {c : Choice ε} (ht : s.ended t = false)
    (hc : s.log.touches t c = some u) (hu : s.ended u = true) : u ∈ s.log.registered := by
  rcases touches_cases hc with rfl | hm
  · rw [ht] at hu; cases hu
  · exact evictees_registered h.log t u hm

/-- C81: if every thread that has ended had deregistered, or never registered, the end of threads does
not matter: each step of a thread that has not ended is what it is in a program whose threads never
end. Missing for the full claim: threads that end while registered (`C81_refuted`). -/
theorem C81_partial (h : Life.Reachable pol tid s) (hd : ∀ u ∈ s.log.registered, s.ended u = false)
    (ht : s.ended t = false) (c : Choice ε) :
    s.next pol tid t (.log c) = match s.log.next pol tid t c with
      | .to l => .to { s with log := l }
      | .ub => .ub
      | .blocked => .blocked := by
  have ha : ¬ Option.any s.ended (s.log.touches t c) = true := by
    intro ha
    cases e : s.log.touches t c with
    | none => rw [e] at ha; cases ha
    | some u =>
      rw [e] at ha
      have hu : s.ended u = true := ha
      have := hd u (C81_dangling_partial h ht e hu)
      rw [hu] at this; cases this
  show (if s.ended t = true then _ else if Option.any s.ended (s.log.touches t c) = true then _ else _) = _
  rw [if_neg (by simp [ht]), if_neg ha]
  rfl

/-- C81: and no step reads or writes the storage of a thread that has ended: with anything in that
storage (`g`) the step has the same result, and leaves it as it is. -/
theorem C81_storage_partial (h : Life.Reachable pol tid s) (hd : ∀ u ∈ s.log.registered, s.ended u = false)
    (ht : s.ended t = false) (c : Choice ε) (g : Nat → Tenant)
    (hg : ∀ u, s.ended u = false → g u = s.log.tenant u) :
    (s.log.next pol tid t c = .blocked ∧ St.next pol tid { s.log with tenant := g } t c = .blocked) ∨
    (s.log.next pol tid t c = .ub ∧ St.next pol tid { s.log with tenant := g } t c = .ub) ∨
    ∃ l g', s.log.next pol tid t c = .to l ∧
      St.next pol tid { s.log with tenant := g } t c = .to { l with tenant := g' } ∧
      (∀ u, s.ended u = false → g' u = l.tenant u) ∧
      ∀ u, s.ended u = true → g' u = g u ∧ l.tenant u = s.log.tenant u := by
  have hf : Fits (fun u => s.ended u = false) s.log := by
    refine ⟨fun v => ?_, hd⟩
    have hid := fun hv => h.idle (u := v) hv
    have hev := fun u hu => hd u (evictees_registered h.log v u hu)
    cases he : s.ended v with
    | true => rw [hid he]; trivial
    | false =>
      generalize s.log.pc v = p at hev
      cases p with
      | held w st =>
        cases w with
        | evict l sh => exact hev
        | evictClear w l sh =>
          exact ⟨hev w (List.mem_cons_self ..), fun u hu => hev u (List.mem_cons_of_mem _ hu)⟩
        | evictUnlock w l sh =>
          exact ⟨hev w (List.mem_cons_self ..), fun u hu => hev u (List.mem_cons_of_mem _ hu)⟩
        | user => trivial
        | startCreate n => trivial
        | startEnable => trivial
      | idle => trivial
      | release => trivial
      | _ => exact he
  have hfr := next_framed (pol := pol) (tid := tid) (t := t) (c := c) hg hf (fun _ => ht)
  have e1 : (s.log.ten g) = { s.log with tenant := g } := rfl
  rw [e1] at hfr
  generalize St.next pol tid { s.log with tenant := g } t c = o2 at hfr
  generalize s.log.next pol tid t c = o1 at hfr
  cases hfr with
  | blocked => exact Or.inl ⟨rfl, rfl⟩
  | ub => exact Or.inr (Or.inl ⟨rfl, rfl⟩)
  | next hh =>
    refine Or.inr (Or.inr ⟨_, _, rfl, rfl, hh.same, fun u hu => ?_⟩)
    have : ¬ s.ended u = false := by simp [hu]
    exact ⟨hh.other u this, hh.other' u this⟩

/-- A later state. -/
inductive Life.Later (pol : Bool) (tid : Nat → Nat) (s : Life ε) : Life ε → Prop
  | here : Life.Later pol tid s s
  | step {a b : Life ε} {t c} : Life.Later pol tid s a → a.next pol tid t c = .to b → Life.Later pol tid s b

theorem Life.Later.reachable (h : Life.Reachable pol tid s) (hl : Life.Later pol tid s s') :
    Life.Reachable pol tid s' := by
  induction hl with
  | here => exact h
  | step _ hs ih => exact .step ih hs

theorem logStep_off {l l' : St ε} {sp : Bool} (hs : l.logStep tid t sp = .to l') (h1 : l.enabled = true)
    (h2 : l'.enabled = false) : (l'.pc t).evictees = l.registered := by
  unfold St.logStep at hs
  repeat' split at hs
  all_goals first
    | cases hs; done
    | (cases hs; rw [St.beginStop, goto_pc]; rfl)
    | (exfalso; cases hs; simp [St.goto, St.setLock, St.setBuf, St.setChunk, St.loaned, St.recorded, h1] at h2)

theorem popped_enabled (x : St ε) (st : List Frame) : (x.pop t st).enabled = x.enabled := by
  match st with
  | [] => rfl
  | .resumeUser :: st => rfl
  | .finishStart n :: st => rfl

theorem unwound_enabled (x : St ε) (st : List Frame) : (x.unwind t st).enabled = x.enabled := by
  rw [unwind_eq]; split <;> rfl

theorem heldStep_off {l l' : St ε} {other : Bool} (hs : l.heldStep tid t other = .to l') (h1 : l.enabled = true)
    (h2 : l'.enabled = false) : False := by
  have ff : ∀ {b : Bool}, b = true → b = false → False := by intro b e1 e2; rw [e1] at e2; cases e2
  unfold St.heldStep at hs
  split at hs
  · cases hs
    unfold St.registerBody at h2
    split at h2
    · exact ff h1 h2
    · dsimp only at h2
      split at h2 <;> simp [St.goto, h1] at h2
  · split at hs
    · rename_i x hx
      cases hs
      have h2 : x.enabled = false := h2
      unfold St.deregisterBody at hx
      split at hx
      · split at hx
        · cases hx
        · rename_i y hy
          have : y.enabled = true := by
            unfold St.returnOwn at hy
            split at hy
            · cases hy; exact h1
            · split at hy
              · cases hy; exact h1
              · split at hy <;> cases hy; exact h1
          dsimp only at hx
          split at hx <;> cases hx <;> exact ff this h2
      · cases hx; exact ff h1 h2
    · cases hs
  · cases hs; exact ff h1 h2
  · split at hs
    · cases hs; exact ff h1 h2
    · cases hs; rw [popped_enabled] at h2; exact ff h1 h2
  · split at hs
    · cases hs; exact ff h1 h2
    · split at hs
      · cases hs; exact ff h1 h2
      · cases hs; rw [h1] at h2; cases h2
  · cases hs; exact ff h1 h2
  · cases hs; exact ff h1 h2
  · cases hs; exact ff h1 h2
  · cases hs; rw [popped_enabled] at h2; cases h2
  · cases hs

/-- Tracing is turned off only at the beginning of a stop, with all registered tenants to evict. -/
theorem next_off {l l' : St ε} {c : Choice ε} (hs : l.next pol tid t c = .to l') (h1 : l.enabled = true)
    (h2 : l'.enabled = false) : (l'.pc t).evictees = l.registered := by
  have key : ∀ sp, (match l.logStep tid t sp with
      | .blocked => l.heldStep tid t sp
      | o => o) = .to l' → (l'.pc t).evictees = l.registered := by
    intro sp hs
    split at hs
    · exact (heldStep_off hs h1 h2).elim
    · exact logStep_off hs h1 h2
  have no : l'.enabled = l.enabled → (l'.pc t).evictees = l.registered := by
    intro e; rw [e, h1] at h2; cases h2
  unfold St.next at hs
  cases c with
  | step => exact key false hs
  | spurious => exact key true hs
  | log e => dsimp only at hs; split at hs <;> cases hs; exact no rfl
  | lock => dsimp only at hs; split at hs <;> cases hs; exact no rfl
  | register n => dsimp only at hs; split at hs <;> cases hs; exact no rfl
  | deregister => dsimp only at hs; split at hs <;> cases hs; exact no rfl
  | free c => dsimp only at hs; split at hs <;> cases hs; exact no rfl
  | start cfg =>
    dsimp only at hs
    split at hs
    · split at hs
      · cases hs
      · split at hs
        · split at hs
          · cases hs; exact no rfl
          · first
              | (cases hs; rw [St.beginStop, goto_pc]; rfl)
              | (split at hs <;> cases hs <;> first | exact no rfl | (rw [St.beginStop, goto_pc]; rfl))
        · cases hs
    · cases hs
  | stop sh =>
    dsimp only at hs
    split at hs
    · split at hs <;> cases hs <;> first | exact no rfl | (rw [St.beginStop, goto_pc]; rfl)
    · cases hs
  | getBuffer => dsimp only at hs; split at hs <;> (try split at hs) <;> cases hs <;> exact no rfl
  | getTraceContext => dsimp only at hs; split at hs <;> (try split at hs) <;> cases hs <;> exact no rfl
  | ret => dsimp only at hs; split at hs <;> cases hs; exact no (popped_enabled _ _)
  | throw => dsimp only at hs; split at hs <;> cases hs; exact no (unwound_enabled _ _)

/-- An evictee that is not accessed is still to be evicted after the step. -/
theorem evictee_stays {l l' : St ε} {c : Choice ε} (hs : l.next pol tid t c = .to l') {u : Nat}
    (hu : u ∈ (l.pc t).evictees) (hc : l.touches t c ≠ some u) : u ∈ (l'.pc t).evictees := by
  cases hp : l.pc t with
  | held w st =>
    rw [hp] at hu
    have hl : ∀ sp, l.logStep tid t sp = .blocked := fun sp => by simp only [St.logStep, hp]
    have hid : l.isIdle t = false := by simp only [St.isIdle, hp]
    cases w with
    | evict r sh =>
      cases r with
      | nil => cases hu
      | cons w r =>
        cases c <;> simp only [St.next, hl, hid, hp, St.heldStep] at hs
        case step =>
          have hne : w ≠ u := fun e => hc (by simp only [St.touches, hp, e])
          simp only [Bool.false_eq_true, if_false] at hs
          split at hs
          · cases hs; rw [goto_pc]; exact hu
          · cases hs; rw [hp]; exact hu
        case spurious =>
          simp only [if_true] at hs
          cases hs
          rw [goto_pc]
          simp only [Pc.evictees, List.mem_append, List.mem_cons] at hu ⊢
          exact hu.symm.imp id Or.inl
        case free b => split at hs <;> cases hs; show u ∈ (l.pc t).evictees; rw [hp]; exact hu
        all_goals simp at hs
    | evictClear w r sh =>
      cases c <;> simp only [St.next, hl, hid, hp, St.heldStep] at hs
      case step => cases hs; rw [goto_pc]; exact hu
      case spurious => cases hs; rw [goto_pc]; exact hu
      case free b => split at hs <;> cases hs; show u ∈ (l.pc t).evictees; rw [hp]; exact hu
      all_goals simp at hs
    | evictUnlock w r sh =>
      cases c <;> simp only [St.next, hl, hid, hp, St.heldStep] at hs
      case step =>
        have hne : w ≠ u := fun e => hc (by simp only [St.touches, hp, e])
        cases hs; rw [goto_pc]
        exact (List.mem_cons.1 hu).resolve_left (Ne.symm hne)
      case spurious =>
        have hne : w ≠ u := fun e => hc (by simp only [St.touches, hp, e])
        cases hs; rw [goto_pc]
        exact (List.mem_cons.1 hu).resolve_left (Ne.symm hne)
      case free b => split at hs <;> cases hs; show u ∈ (l.pc t).evictees; rw [hp]; exact hu
      all_goals simp at hs
    | user => cases hu
    | startCreate n => cases hu
    | startEnable => cases hu
  | _ => rw [hp] at hu; cases hu

/-- C81, how a thread that ends while registered ruins the log: once such a thread has ended while
tracing is on, no stop can complete. In every later state reached without undefined behaviour tracing
is still on, or some thread is inside `evictThreads`, still to access the storage of the thread that
has ended. -/
theorem C81_stuck (h : Life.Reachable pol tid s) (hu : s.ended u = true) (hr : u ∈ s.log.registered)
    (he : s.log.enabled = true) (hl : Life.Later pol tid s s') :
    s'.log.enabled = true ∨ ∃ v, s'.log.owner = some v ∧ u ∈ (s'.log.pc v).evictees := by
  have key : s'.ended u = true ∧ u ∈ s'.log.registered ∧
      (s'.log.enabled = true ∨ ∃ v, u ∈ (s'.log.pc v).evictees) := by
    induction hl with
    | here => exact ⟨hu, hr, Or.inl he⟩
    | @step a b t c hl hs ih =>
      obtain ⟨i1, i2, i3⟩ := ih
      cases c with
      | finish =>
        obtain ⟨h1, -, rfl⟩ := Life.next_finish hs
        refine ⟨?_, i2, i3⟩
        simp only [setf]
        split
        · rfl
        · exact i1
      | log c =>
        obtain ⟨h1, h2, h3, h4⟩ := Life.next_log hs
        have hne : u ≠ t := by rintro rfl; rw [h1] at i1; cases i1
        have hev := next_evicts h4
        refine ⟨by rw [h3]; exact i1, ?_, ?_⟩
        · rcases hev.reg with e | ⟨_, _, e⟩
          · rw [e]; exact i2
          · exact (e u hne).2 i2
        · rcases i3 with i3 | ⟨v, hv⟩
          · cases hb : b.log.enabled with
            | true => exact Or.inl rfl
            | false => exact Or.inr ⟨t, by rw [next_off h4 i3 hb]; exact i2⟩
          · right
            refine ⟨v, ?_⟩
            by_cases hvt : v = t
            · subst hvt
              refine evictee_stays h4 hv (fun e => ?_)
              have := h2 u e
              rw [i1] at this; cases this
            · rw [next_pc h4 hvt]; exact hv
  rcases key.2.2 with k | ⟨v, hv⟩
  · exact Or.inl k
  · exact Or.inr ⟨v, ((hl.reachable h).log.ctl0.own v).2 (Pc.evictees_holds hv), hv⟩

/-! ### Witnesses -/

/-- Thread 1 registers and ends; thread 0 starts and stops tracing. -/
def endsRegistered : List (Nat × Life.Choice Nat) :=
  [(1, .log (.register [])), (1, .log .step), (1, .log .step), (1, .finish),
   (0, .log .lock), (0, .log (.start { mode := .fixed, size := 8192 })), (0, .log .step), (0, .log .step),
   (0, .log (.stop false)), (0, .log .step)]

/-- C81 is refuted: stopping accesses the storage of the thread that has ended. -/
theorem C81_refuted : ∃ l : List (Nat × Life.Choice Nat), Life.run true id Life.init l = .ub ∧
    ∀ p ∈ l, p.1 = 0 ∨ p.1 = 1 := by
  refine ⟨endsRegistered, ?_, by decide⟩
  have : (match Life.run true id Life.init endsRegistered with
    | .ub => true
    | _ => false) = true := by decide +kernel
  split at this
  · assumption
  · cases this

/-- Thread 1 registers, logs, deregisters and ends; thread 0 starts, and stops tracing. -/
def endsWell : List (Nat × Life.Choice Nat) :=
  [(0, .log .lock), (0, .log (.start { mode := .fixed, size := 8192 })), (0, .log .step), (0, .log .step),
   (0, .log .ret), (0, .log .step), (1, .log (.register [])), (1, .log .step), (1, .log .step), (1, .log (.log 5))] ++
  List.replicate 11 (1, .log .step) ++ [(1, .log .deregister), (1, .log .step), (1, .log .step), (1, .finish)]

theorem Life.run_reachable {l : List (Nat × Life.Choice ε)} {a b : Life ε} (h : Life.Reachable pol tid a)
    (hr : a.run pol tid l = .to b) : Life.Reachable pol tid b := by
  induction l generalizing a with
  | nil => cases hr; exact h
  | cons p l ih =>
    obtain ⟨t, c⟩ := p
    rw [Life.run] at hr
    split at hr
    · rename_i a' e; exact ih (.step h e) hr
    · cases hr
    · cases hr

theorem Life.some_of {o : Out (Life ε)} {f : Life ε → Bool}
    (h : (match o with
      | .to s => f s
      | _ => false) = true) : ∃ s, o = .to s ∧ f s = true := by
  split at h
  · exact ⟨_, rfl, h⟩
  · cases h

/-- A case of `C81_partial` and `C81_storage_partial`: thread 1 has logged and ended properly, tracing
is on, thread 0 can go on. -/
example : ∃ s : Life Nat, Life.Reachable true id s ∧ s.ended 1 = true ∧ s.ended 0 = false ∧
    s.log.registered = [] ∧ s.log.enabled = true ∧ s.log.stored 0 1 = [5] := by
  obtain ⟨s, h1, h2⟩ := Life.some_of (o := Life.run true id Life.init endsWell)
    (f := fun s => s.ended 1 && !s.ended 0 && decide (s.log.registered = []) && s.log.enabled &&
      decide (s.log.stored 0 1 = [5])) (by decide +kernel)
  simp only [Bool.and_eq_true, decide_eq_true_eq, Bool.not_eq_true'] at h2
  exact ⟨s, Life.run_reachable .init h1, h2.1.1.1.1, h2.1.1.1.2, h2.1.1.2, h2.1.2, h2.2⟩

/-- A case of `C81_stuck` and `C81_dangling_partial`: thread 1 has ended registered, thread 0 is about
to evict it. -/
example : ∃ s : Life Nat, Life.Reachable true id s ∧ s.ended 1 = true ∧ 1 ∈ s.log.registered ∧
    s.log.enabled = true ∧ ∃ s', Life.Later true id s s' ∧ s'.log.touches 0 .step = some 1 := by
  obtain ⟨s, h1, h2⟩ := Life.some_of (o := Life.run true id Life.init (endsRegistered.take 8))
    (f := fun s => s.ended 1 && decide (1 ∈ s.log.registered) && s.log.enabled &&
      (match s.next true id 0 (.log (.stop false)) with
      | .to s' => decide (s'.log.touches 0 .step = some 1)
      | _ => false)) (by decide +kernel)
  simp only [Bool.and_eq_true, decide_eq_true_eq] at h2
  obtain ⟨h2, h3⟩ := h2
  split at h3
  · rename_i s' h4
    exact ⟨s, Life.run_reachable .init h1, h2.1.1, h2.1.2, h2.2, s', .step .here h4, by simpa using h3⟩
  · cases h3

end Phosphor.TLog
