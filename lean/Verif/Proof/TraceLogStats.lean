import Verif.Proof.TraceLogLoan
/-
Counting loans: the counter of a buffer counts the calls of `getChunk`, each of which hands out a
chunk, is refused one, or waits for one.
-/
namespace Phosphor.TLog
variable {ε : Type} {tid : Nat → Nat} {s s' : St ε} {t : Nat} {pol : Bool}

/-- The thread is about to enter `getChunk` of buffer `b`. -/
def Pc.claims (b : Nat) : Pc ε → Bool
  | .getDo _ p => p == b
  | _ => false

/-- The thread waits in `RingTraceBuffer::getChunk` of buffer `b`. -/
def Pc.waits (b : Nat) : Pc ε → Bool
  | .getWait _ p => p == b
  | _ => false

theorem returnChunk_counter (x : Buffer ε) (i : Nat) : (x.returnChunk i).counter = x.counter := by
  unfold Buffer.returnChunk; split <;> rfl

theorem setBuf_counter (x : St ε) (p : Nat) (y : Buffer ε) (b : Nat) (h : y.counter = (x.heap p).counter) :
    ((x.setBuf p y).heap b).counter = (x.heap b).counter := by
  simp only [St.setBuf, setf]
  split
  · subst_vars; exact h
  · rfl

theorem heldStep_counter {o : Bool} (hs : s.heldStep tid t o = .to s') {b : Nat} (hn : b ≠ s.nextBuf) :
    (s'.heap b).counter = (s.heap b).counter := by
  unfold St.heldStep at hs
  split at hs
  case h_1 =>
    cases hs; unfold St.registerBody; split
    · rfl
    · dsimp only; split <;> rfl
  case h_2 =>
    split at hs
    · rename_i x hx
      cases hs
      show (x.heap b).counter = _
      unfold St.deregisterBody at hx
      split at hx
      · split at hx
        · cases hx
        · rename_i y hy
          have hy' : (y.heap b).counter = (s.heap b).counter := by
            unfold St.returnOwn at hy
            split at hy
            · cases hy; rfl
            · split at hy
              · cases hy; rfl
              · split at hy
                · cases hy; exact setBuf_counter _ _ _ _ (returnChunk_counter _ _)
                · cases hy
          dsimp only at hx
          split at hx <;> cases hx <;> exact hy'
      · cases hx; rfl
    · cases hs
  case h_3 => cases hs; rfl
  case h_4 =>
    split at hs <;> cases hs
    · rfl
    · rw [pop_heap]
  case h_5 =>
    split at hs
    · cases hs; rfl
    · split at hs <;> cases hs <;> rfl
  case h_6 => cases hs; rfl
  case h_7 => cases hs; rfl
  case h_8 =>
    cases hs
    show (setf s.heap s.nextBuf _ b).counter = _
    simp only [setf, if_neg hn]
  case h_9 => cases hs; rw [pop_heap]; rfl
  case h_10 => cases hs

theorem pushAt_counter (x : Buffer ε) (i : Nat) (e : ε) : (x.pushAt i e).1.counter = x.counter := by
  unfold Buffer.pushAt; split <;> rfl

theorem ringTake_counter {x x' : Buffer ε} {n i : Nat} (h : x.ringTake n = some (x', i)) : x'.counter = x.counter := by
  unfold Buffer.ringTake at h; split at h <;> cases h; rfl

theorem logStep_counter {sp : Bool} (hs : s.logStep tid t sp = .to s') (b : Nat) :
    (s'.heap b).counter = (s.heap b).counter + (if (s.pc t).claims b then 1 else 0) := by
  cases hp : s.pc t with
  | getDo e p =>
    simp only [St.logStep, hp] at hs
    have put : ∀ (x : Buffer ε) (y : St ε), x.counter = (s.heap p).counter + 1 →
        (∀ c, y.heap c = (s.setBuf p x).heap c) →
        (y.heap b).counter = (s.heap b).counter + (if (Pc.getDo e p).claims b then 1 else 0) := by
      intro x y hx hy
      rw [hy]
      by_cases hb : b = p
      · subst hb; simp [St.setBuf, setf, Pc.claims, hx]
      · have : ¬ p = b := fun h => hb h.symm
        simp [St.setBuf, setf, Pc.claims, hb, this]
    have ring : ∀ {x : Buffer ε} {n : Nat} {g}, (s.heap p).ringClaim n = (x, g) → x.counter = (s.heap p).counter + 1 := by
      intro x n g h
      unfold Buffer.ringClaim at h; dsimp only at h; split at h <;> cases h <;> rfl
    have fixed : ∀ {x : Buffer ε} {n : Nat} {g}, (s.heap p).getChunkFixed n = (x, g) → x.counter = (s.heap p).counter + 1 := by
      intro x n g h
      unfold Buffer.getChunkFixed at h; dsimp only at h; split at h <;> cases h <;> rfl
    split at hs
    · split at hs
      · split at hs <;> rename_i hx <;> cases hs <;> exact put _ _ (ring hx) (fun _ => rfl)
      · split at hs
        · rename_i hx; cases hs; exact put _ _ (fixed hx) (fun _ => rfl)
        · rename_i hx; cases hs; exact put _ _ (fixed hx) (fun _ => rfl)
    · cases hs
  | _ =>
    show _ = _ + 0
    simp only [St.logStep, hp] at hs
    repeat' split at hs
    all_goals first
      | (cases hs; done)
      | (cases hs; rfl)
      | (cases hs; exact setBuf_counter _ _ _ _ (returnChunk_counter _ _))
      | (rename_i hx; cases hs; exact setBuf_counter _ _ _ _ (ringTake_counter hx))
      | (rename_i hx; cases hs
         refine setBuf_counter _ _ _ _ ?_
         have := congrArg Prod.fst hx; dsimp only at this; rw [← this]; exact pushAt_counter _ _ _)

/-- A thread inside `logEvent` can only go on. -/
theorem next_logging {c : Choice ε} (hs : s.next pol tid t c = .to s') (hi : s.pc t ≠ .idle)
    (hh : ∀ w st, s.pc t ≠ .held w st) :
    (∃ o, s.logStep tid t o = .to s') ∨ (∃ o, s.logStep tid t o = .blocked ∧ s.heldStep tid t o = .to s') ∨
      (s'.heap = s.heap ∧ s'.tenant = s.tenant ∧ s'.pc = s.pc ∧ s'.registered = s.registered) := by
  have key : ∀ sp, (match s.logStep tid t sp with
      | .blocked => s.heldStep tid t sp
      | o => o) = .to s' → (∃ o, s.logStep tid t o = .to s') ∨
        (∃ o, s.logStep tid t o = .blocked ∧ s.heldStep tid t o = .to s') ∨
      (s'.heap = s.heap ∧ s'.tenant = s.tenant ∧ s'.pc = s.pc ∧ s'.registered = s.registered) := by
    intro sp hk
    cases hl : s.logStep tid t sp with
    | ub => rw [hl] at hk; cases hk
    | to y => rw [hl] at hk; cases hk; exact Or.inl ⟨sp, hl⟩
    | blocked => rw [hl] at hk; exact Or.inr (Or.inl ⟨sp, hl, hk⟩)
  have ni : s.isIdle t = false := by
    unfold St.isIdle; split
    · rename_i h; exact absurd h hi
    · rfl
  unfold St.next at hs
  cases c with
  | step => exact key false hs
  | spurious => exact key true hs
  | log e => simp [ni] at hs
  | lock => simp [ni] at hs
  | register n => simp [ni] at hs
  | deregister => simp [ni] at hs
  | free b => dsimp only at hs; split at hs <;> cases hs; exact Or.inr (Or.inr ⟨rfl, rfl, rfl, rfl⟩)
  | _ =>
    dsimp only at hs
    split at hs
    · rename_i hp; exact absurd hp (hh _ _)
    · cases hs

theorem next_counter {c : Choice ε} (hs : s.next pol tid t c = .to s') {b : Nat} (hn : b ≠ s.nextBuf)
    (hp : (s.pc t).claims b = false) : (s'.heap b).counter = (s.heap b).counter := by
  have key : ∀ sp, (match s.logStep tid t sp with
      | .blocked => s.heldStep tid t sp
      | o => o) = .to s' → (s'.heap b).counter = (s.heap b).counter := by
    intro sp hk
    split at hk
    · exact heldStep_counter hk hn
    · have := logStep_counter hk b
      rw [hp] at this; exact this
  unfold St.next at hs
  cases c with
  | step => exact key false hs
  | spurious => exact key true hs
  | ret =>
    dsimp only at hs
    split at hs
    · cases hs; rw [pop_heap]
    · cases hs
  | throw =>
    dsimp only at hs
    split at hs
    · rename_i st _
      cases hs
      obtain ⟨q, _, e⟩ := unwind_goto s t st
      rw [e]; rfl
    · cases hs
  | _ =>
    dsimp only at hs
    repeat' split at hs
    all_goals first | (cases hs; done) | (cases hs; rfl)

/-- What a step of `t` means for the loans of buffer `b`. -/
inductive Trade (s : St ε) (t b : Nat) (s' : St ε) : Prop
  | quiet (count : (s'.heap b).counter = (s.heap b).counter) (has : s'.has b t = true → s.has b t = true)
      (wait : (s'.pc t).waits b = (s.pc t).waits b)
  | loan (count : (s'.heap b).counter = (s.heap b).counter + 1) (old : s.has b t = false) (new : s'.has b t = true)
      (w : (s.pc t).waits b = false) (w' : (s'.pc t).waits b = false) (room : (s.heap b).counter < (s.heap b).size)
  | refused (count : (s'.heap b).counter = (s.heap b).counter + 1) (old : s.has b t = false)
      (new : s'.has b t = false) (w : (s.pc t).waits b = false) (w' : (s'.pc t).waits b = false)
      (mode : (s.heap b).mode ≠ .ring) (full : (s.heap b).size ≤ (s.heap b).counter)
  | wait (count : (s'.heap b).counter = (s.heap b).counter + 1) (old : s.has b t = false)
      (new : s'.has b t = false) (w : (s.pc t).waits b = false) (w' : (s'.pc t).waits b = true)
      (mode : (s.heap b).mode = .ring)
  | take (count : (s'.heap b).counter = (s.heap b).counter) (old : s.has b t = false) (new : s'.has b t = true)
      (w : (s.pc t).waits b = true) (w' : (s'.pc t).waits b = false)

theorem has_set (x : St ε) (p i b : Nat) (q : Pc ε) (y : Buffer ε) :
    ((((x.setBuf p y).loaned t p i).setChunk t (some (p, i))).goto t q).has b t = (p == b) := by
  simp [St.has, St.goto, St.setChunk, setf]

theorem next_trade {c : Choice ε} (hc : Ctl s) (hs : s.next pol tid t c = .to s') {b : Nat} (hn : b ≠ s.nextBuf) :
    Trade s t b s' := by
  cases hp : s.pc t with
  | getDo e p =>
    have hnone : (s.tenant t).chunk = none := hc.noChunk t (by rw [hp]; rfl)
    have hold : s.has b t = false := by simp [St.has, hnone]
    have hw : (s.pc t).waits b = false := by rw [hp]; rfl
    rcases next_logging hs (by rw [hp]; simp) (by rw [hp]; simp) with ⟨o, h⟩ | ⟨o, h, _⟩ | ⟨h1, h2, h3, _⟩
    · have hcount := logStep_counter h b
      by_cases hb : p = b
      · subst hb
        rw [hp] at hcount
        have hcount : (s'.heap p).counter = (s.heap p).counter + 1 := by simpa [Pc.claims] using hcount
        simp only [St.logStep, hp] at h
        split at h
        · split at h
          · rename_i hm
            split at h <;> rename_i hx <;> cases h
            · refine .loan hcount hold (by rw [has_set]; simp) hw (by rw [goto_pc]; rfl) ?_
              unfold Buffer.ringClaim at hx; dsimp only at hx; split at hx
              · cases hx
              · rename_i hlt; exact Nat.lt_of_not_le hlt
            · exact .wait hcount hold hold hw (by rw [goto_pc]; simp [Pc.waits]) hm
          · rename_i hm
            split at h
            · rename_i hx
              cases h
              refine .loan hcount hold (by rw [has_set]; simp) hw (by rw [goto_pc]; rfl) ?_
              unfold Buffer.getChunkFixed at hx; dsimp only at hx; split at hx
              · cases hx
              · rename_i hlt; exact Nat.lt_of_not_le hlt
            · rename_i hx
              cases h
              refine .refused hcount hold hold hw (by rw [goto_pc]; rfl) (fun h => hm h) ?_
              unfold Buffer.getChunkFixed at hx; dsimp only at hx; split at hx
              · assumption
              · rename_i h1 _ _ ; cases hx; exact absurd rfl (h1 _)
        · cases h
      · rw [hp] at hcount
        have hcount : (s'.heap b).counter = (s.heap b).counter := by simpa [Pc.claims, hb] using hcount
        simp only [St.logStep, hp] at h
        have hpb : (p == b) = false := by simp [hb]
        refine .quiet hcount ?_ ?_
        · repeat' split at h
          all_goals first
            | (cases h; done)
            | (cases h; rw [has_set, hpb]; intro h; cases h)
            | (cases h; exact fun h => h)
        · rw [hw]
          repeat' split at h
          all_goals first
            | (cases h; done)
            | (cases h; rw [goto_pc]; first | rfl | exact hpb)
    · simp only [St.logStep, hp] at h
      repeat' split at h
      all_goals cases h
    · exact .quiet (by rw [h1]) (by simp [St.has, h2]) (by rw [h3])
  | getWait e p =>
    have hnone : (s.tenant t).chunk = none := hc.noChunk t (by rw [hp]; rfl)
    have hold : s.has b t = false := by simp [St.has, hnone]
    rcases next_logging hs (by rw [hp]; simp) (by rw [hp]; simp) with ⟨o, h⟩ | ⟨o, h, _⟩ | ⟨h1, h2, h3, _⟩
    · have hcount := logStep_counter h b
      rw [hp] at hcount
      have hcount : (s'.heap b).counter = (s.heap b).counter := by simpa [Pc.claims] using hcount
      simp only [St.logStep, hp] at h
      split at h
      · split at h <;> cases h
        · by_cases hb : p = b
          · subst hb
            exact .take hcount hold (by rw [has_set]; simp) (by rw [hp]; simp [Pc.waits]) (by rw [goto_pc]; rfl)
          · have hpb : (p == b) = false := by simp [hb]
            exact .quiet hcount (by rw [has_set, hpb]; simp) (by rw [goto_pc, hp]; exact hpb.symm)
        · exact .quiet rfl (fun h => h) rfl
      · cases h
    · simp only [St.logStep, hp] at h
      repeat' split at h
      all_goals cases h
    · exact .quiet (by rw [h1]) (by simp [St.has, h2]) (by rw [h3])
  | _ =>
    have hcl : (s.pc t).claims b = false := by rw [hp]; rfl
    have hw : (s.pc t).waits b = false := by rw [hp]; rfl
    refine .quiet (next_counter hs hn hcl) ?_ ?_
    · have hm := next_move hc hs
      cases hm with
      | calm _ ch => simp [St.has, ch]
      | loan q i h1 h2 h3 h4 =>
        rw [hp] at h1 h2
        first
          | (cases h1; done)
          | (cases h2; done)
          | (exfalso
             have hnone : (s.tenant t).chunk = none := hc.noChunk t (by rw [hp]; rfl)
             have hnew := h4 t
             rw [if_pos rfl] at hnew
             rcases next_logging hs (by rw [hp]; simp) (by rw [hp]; simp) with ⟨o, h⟩ | ⟨o, h, _⟩ | ⟨_, h2, _, _⟩
             · simp only [St.logStep, hp] at h
               have e : s'.tenant = s.tenant := by cases h; rfl
               rw [e, hnone] at hnew; cases hnew
             · simp only [St.logStep, hp] at h; cases h
             · rw [h2, hnone] at hnew; cases hnew)
      | ret q i h1 h2 h3 => simp [St.has, h3]
      | clear u rest h1 h2 h3 h4 =>
        simp only [St.has, h4]; split
        · intro h; cases h
        · exact fun h => h
      | create n st h1 h2 h3 => simp [St.has, h3]
      | member h1 h2 h3 => simp [St.has, h3]
    · rw [hw]
      cases hq : (s'.pc t).waits b with
      | false => rfl
      | true =>
        exfalso
        unfold Pc.waits at hq
        split at hq
        · rename_i e p hp'
          rcases next_wait hs hp' with h | ⟨h, _⟩ <;> rw [hp] at h <;> cases h
        · cases hq

/-! ### The tally -/

theorem countP_swap {l : List Nat} (hl : l.Nodup) {f g : Nat → Bool} {t : Nat} (ht : t ∈ l)
    (h : ∀ u, u ≠ t → f u = g u) : l.countP f + (if g t then 1 else 0) = l.countP g + (if f t then 1 else 0) := by
  cases hf : f t <;> cases hg : g t
  · rw [countP_same (f := f) (g := g)]
    intro u _
    by_cases hu : u = t
    · rw [hu, hf, hg]
    · exact h u hu
  · have := countP_drop hl ht hg hf (fun u _ hu => (h u hu).symm)
    simp only [if_true, Bool.false_eq_true, if_false]; omega
  · have := countP_drop hl ht hf hg (fun u _ hu => h u hu)
    simp only [if_true, Bool.false_eq_true, if_false]; omega
  · rw [countP_same (f := f) (g := g)]
    intro u _
    by_cases hu : u = t
    · rw [hu, hf, hg]
    · exact h u hu

/-- The number of threads that wait in `getChunk` for a chunk of `b`. -/
def St.waiting (s : St ε) (b : Nat) : Nat := s.registered.countP (fun u => (s.pc u).waits b)

theorem Pc.waits_past {p : Pc ε} {b : Nat} (h : p.waits b = true) :
    p.pastInit = true ∧ p.bufPtr = some b ∧ p.holdsMutex = false ∧ p.claims b = false := by
  unfold Pc.waits at h
  split at h
  · rename_i e q
    have : q = b := by simpa using h
    subst this
    exact ⟨rfl, rfl, rfl, rfl⟩
  · cases h

/-- Only a thread that had a chunk, or was getting one, of an existing buffer has one after a step. -/
theorem has_old {c : Choice ε} (hc : Ctl s) (hs : s.next pol tid t c = .to s') {b : Nat}
    (h : s'.has b t = true) : b < s.nextBuf := by
  have old : s.has b t = true → b < s.nextBuf := by
    intro h
    unfold St.has at h
    cases hx : (s.tenant t).chunk with
    | none => rw [hx] at h; cases h
    | some q =>
      obtain ⟨q, i⟩ := q
      rw [hx] at h
      have : q = b := by simpa using h
      subst this
      have := hc.last q (hc.chunkBuf t q i hx)
      omega
  cases next_move hc hs with
  | calm _ ch => exact old (by rw [St.has, ch] at h; exact h)
  | loan q i h1 h2 h3 h4 =>
    have : q = b := by
      rw [St.has, h4, if_pos rfl] at h
      simpa using h
    subst this
    have := hc.last q (hc.ptr t q h2)
    omega
  | ret q i h1 h2 h3 => rw [St.has, h3, if_pos rfl] at h; cases h
  | clear u rest h1 h2 h3 h4 =>
    refine old ?_
    rw [St.has, h4] at h
    split at h
    · cases h
    · exact h
  | create n st h1 h2 h3 => exact old (by rw [St.has, h3] at h; exact h)
  | member h1 h2 h3 => exact old (by rw [St.has, h3] at h; exact h)

theorem waits_old {c : Choice ε} (hs : s.next pol tid t c = .to s') {b u : Nat}
    (h : (s'.pc u).waits b = true) : (s.pc u).waits b = true ∨ u = t ∧ (s.pc t).claims b = true := by
  by_cases hu : u = t
  · subst hu
    unfold Pc.waits at h
    split at h
    · rename_i e q hp
      have hq : q = b := by simpa using h
      rcases next_wait hs hp with h1 | ⟨h1, _⟩
      · left; rw [h1]; simp [Pc.waits, hq]
      · right; rw [h1]; exact ⟨rfl, by simp [Pc.claims, hq]⟩
    · cases h
  · rw [next_pc hs hu] at h; exact Or.inl h

theorem Pc.claims_ptr {p : Pc ε} {b : Nat} (h : p.claims b = true) :
    p.bufPtr = some b ∧ p.holdsMutex = false ∧ p.pastInit = true := by
  unfold Pc.claims at h
  split at h
  · rename_i e q
    have : q = b := by simpa using h
    subst this; exact ⟨rfl, rfl, rfl⟩
  · cases h

/-- The waiting threads after a step: those before, but for the thread that stepped. -/
theorem waiting_step {c : Choice ε} (hc : Ctl s) (hc' : Ctl s') (hs : s.next pol tid t c = .to s') (b : Nat) :
    s'.waiting b + (if (s.pc t).waits b then 1 else 0) = s.waiting b + (if (s'.pc t).waits b then 1 else 0) := by
  have same : s'.registered = s.registered →
      s'.waiting b + (if (s.pc t).waits b then 1 else 0) = s.waiting b + (if (s'.pc t).waits b then 1 else 0) := by
    intro hr
    unfold St.waiting
    rw [hr]
    by_cases ht : t ∈ s.registered
    · have := countP_swap hc.nodup (f := fun u => (s'.pc u).waits b) (g := fun u => (s.pc u).waits b) ht
        (fun u hu => by rw [next_pc hs hu])
      exact this
    · have h1 : (s.pc t).waits b = false := by
        cases h : (s.pc t).waits b with
        | false => rfl
        | true => exact absurd ((hc.reg t).2 (hc.pastInit t (Pc.waits_past h).1)) ht
      have h2 : (s'.pc t).waits b = false := by
        cases h : (s'.pc t).waits b with
        | false => rfl
        | true =>
          have := (hc'.reg t).2 (hc'.pastInit t (Pc.waits_past h).1)
          rw [hr] at this; exact absurd this ht
      rw [h1, h2]
      simp only [Bool.false_eq_true, if_false, Nat.add_zero]
      refine countP_same (fun u hu => ?_)
      rw [next_pc hs (fun e => ht (e ▸ hu))]
  have changed : (s.pc t).holdsMutex = true →
      (s'.registered = t :: s.registered ∨ s'.registered = s.registered.filter (· ≠ t)) →
      s'.waiting b + (if (s.pc t).waits b then 1 else 0) = s.waiting b + (if (s'.pc t).waits b then 1 else 0) := by
    intro hm hr
    have h1 : (s.pc t).waits b = false := by
      cases h : (s.pc t).waits b with
      | false => rfl
      | true => rw [(Pc.waits_past h).2.2.1] at hm; cases hm
    have h2 : (s'.pc t).waits b = false := by
      cases h : (s'.pc t).waits b with
      | false => rfl
      | true =>
        rcases waits_old hs h with h | ⟨_, h⟩
        · rw [h1] at h; cases h
        · rw [(Pc.claims_ptr h).2.1] at hm; cases hm
    have h3 : s.registered.countP (fun u => (s'.pc u).waits b) = s.registered.countP (fun u => (s.pc u).waits b) := by
      refine countP_same (fun u _ => ?_)
      by_cases hu : u = t
      · rw [hu, h1, h2]
      · rw [next_pc hs hu]
    rw [h1, h2]
    simp only [Bool.false_eq_true, if_false, Nat.add_zero]
    unfold St.waiting
    rcases hr with hr | hr
    · rw [hr, List.countP_cons, h2, h3]; simp
    · rw [hr, countP_filter_ne h2, h3]
  cases next_move hc hs with
  | calm _ _ hr => exact same hr
  | loan _ _ _ _ _ _ hr => exact same hr
  | ret _ _ _ _ _ hr hm =>
    rcases hr with hr | hr
    · exact same hr
    · by_cases he : s'.registered = s.registered
      · exact same he
      · exact changed (hm he) (Or.inr hr)
  | clear _ _ _ _ _ _ hr => exact same hr
  | create _ _ _ _ _ hr => exact same hr
  | member _ _ _ hr hm => exact changed hm hr

/-- The number of loans of buffer `b` in an execution: steps by which a thread gets a chunk. -/
def loans (pol : Bool) (tid : Nat → Nat) (b : Nat) : St ε → List (Nat × Choice ε) → Nat
  | _, [] => 0
  | s, (t, c) :: l =>
    match s.next pol tid t c with
    | .to s' => (if s.has b t = false ∧ s'.has b t = true then 1 else 0) + loans pol tid b s' l
    | _ => 0

/-- `n` loans of buffer `b` account for its counter. -/
def Tally (s : St ε) (b n : Nat) : Prop :=
  (b < s.nextBuf → if (s.heap b).mode = .ring then (s.heap b).counter = n + s.waiting b
    else min (s.heap b).counter (s.heap b).size = n) ∧ (s.nextBuf ≤ b → n = 0)

theorem Tally.next {c : Choice ε} {b n : Nat} (hr : Reachable true tid s) (h : Tally s b n)
    (hs : s.next true tid t c = .to s') :
    Tally s' b (n + (if s.has b t = false ∧ s'.has b t = true then 1 else 0)) := by
  have hc := hr.ctl
  have hc' : Ctl s' := (Reachable.step hr hs).ctl
  have hw := waiting_step hc hc' hs b
  by_cases hb : b < s.nextBuf
  · have hn : s.nextBuf ≤ s'.nextBuf := by rcases next_new hs with h | ⟨h, _⟩ <;> omega
    refine ⟨fun _ => ?_, fun h => by omega⟩
    have h1 := h.1 hb
    have sh := (next_bufop hs b (by omega)).shape
    have hm : (s'.heap b).mode = (s.heap b).mode := sh.2.2
    have hz : (s'.heap b).size = (s.heap b).size := sh.2.1
    rw [hm, hz]
    generalize hg : (if s.has b t = false ∧ s'.has b t = true then 1 else 0) = g
    have g1 : s.has b t = false → s'.has b t = true → g = 1 := fun h h' => by rw [← hg, if_pos ⟨h, h'⟩]
    have g0 : (s'.has b t = true → s.has b t = true) → g = 0 := fun h' => by
      rw [← hg, if_neg]
      intro ⟨h1, h2⟩
      rw [h' h2] at h1; cases h1
    have hcase : (s.heap b).mode = .ring ∧ (s.heap b).counter = n + s.waiting b ∨
        (s.heap b).mode ≠ .ring ∧ min (s.heap b).counter (s.heap b).size = n := by
      by_cases hm : (s.heap b).mode = .ring
      · rw [if_pos hm] at h1; exact Or.inl ⟨hm, h1⟩
      · rw [if_neg hm] at h1; exact Or.inr ⟨hm, h1⟩
    have goal : ((s.heap b).mode = .ring → (s'.heap b).counter = n + g + s'.waiting b) →
        ((s.heap b).mode ≠ .ring → min (s'.heap b).counter (s.heap b).size = n + g) →
        if (s.heap b).mode = .ring then (s'.heap b).counter = n + g + s'.waiting b
          else min (s'.heap b).counter (s.heap b).size = n + g := by
      intro ha hb; split
      · exact ha (by assumption)
      · exact hb (by assumption)
    cases next_trade hc hs (b := b) (by omega) with
    | quiet hcount hhas hwait =>
      have := g0 hhas
      rw [hwait] at hw
      refine goal (fun hm => ?_) (fun hm => ?_) <;> rcases hcase with ⟨hx, h2⟩ | ⟨hx, h2⟩ <;> first | contradiction | omega
    | loan hcount h2 h3 h4 h5 h6 =>
      have := g1 h2 h3
      rw [h4, h5] at hw; simp at hw
      refine goal (fun hm => ?_) (fun hm => ?_) <;> rcases hcase with ⟨hx, h2⟩ | ⟨hx, h2⟩ <;> first | contradiction | omega
    | refused hcount h2 h3 h4 h5 h6 h7 =>
      have := g0 (fun h => by rw [h3] at h; cases h)
      refine goal (fun hm => absurd hm h6) (fun hm => ?_)
      rcases hcase with ⟨hx, h2⟩ | ⟨hx, h2⟩ <;> first | contradiction | omega
    | wait hcount h2 h3 h4 h5 h6 =>
      have := g0 (fun h => by rw [h3] at h; cases h)
      rw [h4, h5] at hw; simp at hw
      refine goal (fun hm => ?_) (fun hm => absurd h6 hm)
      rcases hcase with ⟨hx, h2⟩ | ⟨hx, h2⟩ <;> first | contradiction | omega
    | take hcount h2 h3 h4 h5 =>
      have hring : (s.heap b).mode = .ring := by
        have : ∃ e, s.pc t = .getWait e b := by
          unfold Pc.waits at h4
          split at h4
          · rename_i e q hp
            have : q = b := by simpa using h4
            exact ⟨e, by rw [hp, this]⟩
          · cases h4
        obtain ⟨e, he⟩ := this
        exact (hr.waits t e b he).2.1
      have := g1 h2 h3
      rw [h4, h5] at hw; simp at hw
      refine goal (fun hm => ?_) (fun hm => absurd hring hm)
      rcases hcase with ⟨hx, h2⟩ | ⟨hx, h2⟩ <;> first | contradiction | omega
  · have h0 : n = 0 := h.2 (by omega)
    have hno : ¬ (s.has b t = false ∧ s'.has b t = true) := fun h => hb (has_old hc hs h.2)
    rw [if_neg hno, h0]
    refine ⟨fun hb' => ?_, fun _ => rfl⟩
    rcases next_new hs with hn | ⟨hn, k, hx⟩
    · omega
    · have hbn : b = s.nextBuf := by omega
      have hz : s'.waiting b = 0 := by
        unfold St.waiting
        rw [List.countP_eq_zero]
        intro u _ hu
        have : b < s.nextBuf := by
          rcases waits_old hs hu with h | ⟨_, h⟩
          · have := hc.last b (hc.ptr u b (Pc.waits_past h).2.1); omega
          · have := hc.last b (hc.ptr t b (Pc.claims_ptr h).1); omega
        exact hb this
      rw [hz, hbn, hx]
      unfold makeBuffer
      split <;> simp [Buffer.makeRing, Buffer.makeFixed]

theorem Tally.run {l : List (Nat × Choice ε)} {b n : Nat} (hr : Reachable true tid s) (h : Tally s b n)
    (hs : s.run true tid l = .to s') : Tally s' b (n + loans true tid b s l) := by
  induction l generalizing s n with
  | nil => cases hs; exact h
  | cons x l ih =>
    obtain ⟨t, c⟩ := x
    simp only [St.run] at hs
    split at hs
    · rename_i y hy
      have := ih (.step hr hy) (h.next hr hy) hs
      simp only [loans, hy]
      rw [← Nat.add_assoc]; exact this
    · cases hs
    · cases hs

theorem Tally.init {b : Nat} : Tally (St.init : St ε) b 0 :=
  ⟨(fun h => by cases h), (fun _ => rfl)⟩

end Phosphor.TLog
