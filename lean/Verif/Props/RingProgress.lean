import Verif.Props.RingConc
/-
C99: the ring buffer over its lock-free queue has no livelock. Endless executions with a fair scheduler.
-/
namespace Phosphor.RingConc
variable {size : Nat} {s s' : St} {t u : Nat} {c : Choice}

/-- An endless execution; `none`: nothing happens for a while. -/
structure Execution (size : Nat) (σ : Nat → St) (act : Nat → Option (Nat × Choice)) : Prop where
  start : Reachable size (σ 0)
  step : ∀ n u c, act n = some (u, c) → (σ n).next u c = .to (σ (n + 1))
  rest : ∀ n, act n = none → σ (n + 1) = σ n

/-- The scheduler is fair: a thread that is in a call for good goes on again and again, and its compare-exchanges do
not fail spuriously for ever. -/
structure Fair (σ : Nat → St) (act : Nat → Option (Nat × Choice)) : Prop where
  goes : ∀ u n, (∀ m, n ≤ m → (σ m).pc u ≠ .idle) → ∃ m, n ≤ m ∧ act m = some (u, .step)
  calm : ∀ u, ∃ n, ∀ m, n ≤ m → act m ≠ some (u, .spurious)

/-- Some call returns in the step from `σ m` to `σ (m + 1)`. -/
def Returns (σ : Nat → St) (m : Nat) : Prop := ∃ u, (σ m).pc u ≠ .idle ∧ (σ (m + 1)).pc u = .idle

/-- Steps until the call returns, once nothing can hold it up any more; 0: not there yet. -/
def rank : Pc → Mpmc.Pc Nat → Nat
  | .give _, .enqWrite _ _ => 3
  | .give _, .enqPub _ _ => 2
  | .unlend, _ => 1
  | .take, .deqRead _ => 4
  | .take, .deqPub _ _ => 3
  | .reset _, _ => 2
  | .lend _, _ => 1
  | _, _ => 0

theorem rank_next (hs : s.next u c = .to s') (hr : 0 < rank (s.pc u) (s.q.pc u)) :
    s'.pc u = .idle ∨ (0 < rank (s'.pc u) (s'.q.pc u) ∧ rank (s'.pc u) (s'.q.pc u) < rank (s.pc u) (s.q.pc u)) := by
  have acc : ∀ sp, s.access u sp = .to s' →
      s'.pc u = .idle ∨ (0 < rank (s'.pc u) (s'.q.pc u) ∧ rank (s'.pc u) (s'.q.pc u) < rank (s.pc u) (s.q.pc u)) := by
    intro sp hs
    unfold St.access at hs
    split at hs
    · cases hs
    · rename_i hp; rw [hp] at hr; simp [rank] at hr
    · rename_i hp
      rw [hp] at hr ⊢
      generalize hq : s.q.pc u = qp at hr hs
      cases qp <;> simp [rank] at hr
      · cases hs
        right
        show 0 < rank (s.pc u) ((qnext _ _ _ _).pc u) ∧ rank (s.pc u) ((qnext _ _ _ _).pc u) < _
        simp [qnext, hq, Mpmc.goto_self, hp, rank]
      · cases hs
        right
        show 0 < rank ((s.goto u _).pc u) _ ∧ rank ((s.goto u _).pc u) _ < _
        rw [goto_pc]; simp [rank]
    · cases hs
    · rename_i i hp
      rw [hp] at hr ⊢
      split at hs <;> cases hs
      right
      show 0 < rank ((s.goto u _).pc u) _ ∧ rank ((s.goto u _).pc u) _ < _
      rw [goto_pc]; simp [rank]
    · cases hs; left; exact goto_pc s u _
    · rename_i i hp
      rw [hp] at hr ⊢
      generalize hq : s.q.pc u = qp at hr hs
      cases qp <;> simp [rank] at hr
      · cases hs
        right
        show 0 < rank (s.pc u) ((qnext _ _ _ _).pc u) ∧ rank (s.pc u) ((qnext _ _ _ _).pc u) < _
        simp [qnext, hq, Mpmc.goto_self, hp, rank]
      · cases hs
        right
        show 0 < rank ((s.goto u _).pc u) _ ∧ rank ((s.goto u _).pc u) _ < _
        rw [goto_pc]; simp [rank]
    · cases hs; left; exact goto_pc s u _
  cases c with
  | step => exact acc _ hs
  | spurious => exact acc _ hs
  | get => simp only [St.next] at hs; split at hs <;> cases hs; rename_i hp; rw [hp] at hr; simp [rank] at hr
  | ret i => simp only [St.next] at hs; split at hs <;> cases hs; rename_i hp; rw [hp.1] at hr; simp [rank] at hr

theorem rank_enqAt {A : RingSys Unit} (hA : Rel s A) {p : Nat} (h : (s.q.pc u).enqAt = some p) :
    0 < rank (s.pc u) (s.q.pc u) := by
  have hsy := hA.sync u
  generalize hq : s.q.pc u = qp at h hsy
  generalize hp : s.pc u = pp at hsy
  cases pp with
  | give i => rcases hsy with hx | ⟨_, hx⟩ | hx | ⟨_, hx⟩ | ⟨_, hx⟩ | ⟨_, hx⟩ <;> subst hx <;> cases h <;> simp [rank]
  | take => rcases hsy with hx | hx <;> (cases qp <;> first | (cases hx; done) | (cases h; done))
  | _ => rw [show qp = .idle from hsy] at h; cases h

theorem rank_deqAt {A : RingSys Unit} (hA : Rel s A) {p : Nat} (h : (s.q.pc u).deqAt = some p) :
    0 < rank (s.pc u) (s.q.pc u) := by
  have hsy := hA.sync u
  generalize hq : s.q.pc u = qp at h hsy
  generalize hp : s.pc u = pp at hsy
  cases pp with
  | give i => rcases hsy with hx | ⟨_, hx⟩ | hx | ⟨_, hx⟩ | ⟨_, hx⟩ | ⟨_, hx⟩ <;> subst hx <;> cases h
  | take => cases qp <;> first | (cases h; done) | simp [rank]
  | _ => rw [show qp = .idle from hsy] at h; cases h

/-- A position moves only with a claim. -/
theorem qnext_pos (n : Nat) (q : Mpmc.St Nat) (t : Nat) (sp : Bool) :
    ((qnext n q t sp).enqPos = q.enqPos ∨ ((qnext n q t sp).pc t).enqAt ≠ none) ∧
    ((qnext n q t sp).deqPos = q.deqPos ∨ ((qnext n q t sp).pc t).deqAt ≠ none) := by
  generalize hq : q.pc t = qp
  cases qp with
  | enqCas x pos =>
    simp only [qnext, hq]
    split
    · exact ⟨Or.inr (by simp [Mpmc.goto_self, Mpmc.Pc.enqAt]), Or.inl rfl⟩
    · exact ⟨Or.inl rfl, Or.inl rfl⟩
  | deqCas pos =>
    simp only [qnext, hq]
    split
    · exact ⟨Or.inl rfl, Or.inr (by simp [Mpmc.goto_self, Mpmc.Pc.deqAt])⟩
    · exact ⟨Or.inl rfl, Or.inl rfl⟩
  | _ => simp [qnext, hq, Mpmc.St.goto]

theorem next_pos (hs : s.next t c = .to s') :
    (s'.q.enqPos = s.q.enqPos ∨ (s'.q.pc t).enqAt ≠ none) ∧ (s'.q.deqPos = s.q.deqPos ∨ (s'.q.pc t).deqAt ≠ none) := by
  have acc : ∀ sp, s.access t sp = .to s' →
      (s'.q.enqPos = s.q.enqPos ∨ (s'.q.pc t).enqAt ≠ none) ∧ (s'.q.deqPos = s.q.deqPos ∨ (s'.q.pc t).deqAt ≠ none) := by
    intro sp hs
    have k := qnext_pos (capacity s.size) s.q t sp
    have same : s'.q.enqPos = s.q.enqPos → s'.q.deqPos = s.q.deqPos →
      (s'.q.enqPos = s.q.enqPos ∨ (s'.q.pc t).enqAt ≠ none) ∧ (s'.q.deqPos = s.q.deqPos ∨ (s'.q.pc t).deqAt ≠ none) :=
      fun a b => ⟨Or.inl a, Or.inl b⟩
    unfold St.access at hs
    split at hs
    · cases hs
    · cases hs; exact same rfl rfl
    · split at hs <;> cases hs
      · exact same rfl rfl
      · exact k
      · exact k
    · cases hs
    · split at hs <;> cases hs; exact same rfl rfl
    · cases hs; exact same rfl rfl
    · split at hs <;> cases hs
      · exact same rfl rfl
      · exact k
      · exact k
    · cases hs; exact same rfl rfl
  cases c with
  | step => exact acc _ hs
  | spurious => exact acc _ hs
  | get => simp only [St.next] at hs; split at hs <;> cases hs; exact ⟨Or.inl rfl, Or.inl rfl⟩
  | ret i => simp only [St.next] at hs; split at hs <;> cases hs; exact ⟨Or.inl rfl, Or.inl rfl⟩

/-- Steps until a call of the queue claims its position, if nobody else does; the loops of the buffer included. -/
def togo (s : St) (t : Nat) : Nat :=
  match s.q.pc t with
  | .idle => 5
  | p => s.q.left p

theorem togo_give {i : Nat} (h1 : 1 ≤ size) (h2 : size ≤ 2 ^ 32) (h : Reachable size s) (hr : s.ready)
    (hp : s.pc t = .give i) (hn : (s.q.pc t).enqAt = none) (hs : s.next t .step = .to s') :
    (s'.q.pc t).enqAt ≠ none ∨ (s'.q.enqPos = s.q.enqPos ∧ togo s' t < togo s t) := by
  obtain ⟨A, hA⟩ := h.rel h1 h2 Unit
  have hi := h.inv h1 h2
  have hsy := hA.sync t
  rw [hp] at hsy
  have hself : ∀ p, (s.q.goto t p).pc t = p := fun p => Mpmc.goto_self s.q t p
  rcases hsy with hq | ⟨p, hq⟩ | hq | ⟨p, hq⟩ | ⟨p, hq⟩ | ⟨p, hq⟩
  · simp only [St.next, St.access, hp, hq] at hs
    cases hs
    right
    refine ⟨rfl, ?_⟩
    simp [togo, hself, hq, Mpmc.St.left]
    simp [Mpmc.St.goto]
  · simp only [St.next, St.access, hp, hq, qnext] at hs
    cases hs
    right
    refine ⟨rfl, ?_⟩
    simp only [togo, hself, hq]
    by_cases hc : p = s.q.enqPos
    · subst hc
      have : s.q.seq (Mpmc.idx (capacity s.size) s.q.enqPos) = s.q.enqPos := by
        rw [idx_capacity h1 h2 h]; exact hi.enq_ready' hr
      rw [this]
      simp [Mpmc.enqNext, Mpmc.St.left, Mpmc.St.goto]
    · rcases enqNext_cases i p (s.q.seq (Mpmc.idx (capacity s.size) p)) with e | e | e
      · exfalso
        obtain ⟨k, hk, ek, _⟩ := capacity_pow h1 h2
        have hm := hA.q
        rw [h.size_eq, ek] at hm e
        exact hc (Mpmc.C22_enqueue_fails_only_if_full hk hm hq e).1
      · rw [e]; simp [Mpmc.St.left, Mpmc.St.goto, hc]
      · rw [e]; simp [Mpmc.St.left, hc]
  · simp only [St.next, St.access, hp, hq, qnext] at hs
    cases hs
    right
    refine ⟨rfl, ?_⟩
    simp [togo, hself, hq, Mpmc.St.left]
    simp [Mpmc.St.goto]
  · simp only [St.next, St.access, hp, hq, qnext] at hs
    by_cases hc : s.q.enqPos = p
    · cases hs
      left
      simp [hc, hself, Mpmc.Pc.enqAt]
    · cases hs
      right
      have hc' : ¬ p = s.q.enqPos := fun h => hc h.symm
      simp [togo, hself, hq, hc, hc', Mpmc.St.left]
      simp [Mpmc.St.goto]
  · rw [hq] at hn; cases hn
  · rw [hq] at hn; cases hn

theorem togo_take (h1 : 1 ≤ size) (h2 : size ≤ 2 ^ 32) (h : Reachable size s) (hr : s.q.pub s.q.deqPos = true)
    (hp : s.pc t = .take) (hn : (s.q.pc t).deqAt = none) (hs : s.next t .step = .to s') :
    (s'.q.pc t).deqAt ≠ none ∨ (s'.q.deqPos = s.q.deqPos ∧ togo s' t < togo s t) := by
  obtain ⟨A, hA⟩ := h.rel h1 h2 Unit
  have hi := h.inv h1 h2
  have hsy := hA.sync t
  rw [hp] at hsy
  have hself : ∀ p, (s.q.goto t p).pc t = p := fun p => Mpmc.goto_self s.q t p
  generalize hq : s.q.pc t = qp at hsy hn
  cases qp with
  | idle =>
    simp only [St.next, St.access, hp, hq] at hs
    cases hs
    right
    refine ⟨rfl, ?_⟩
    simp [togo, hself, hq, Mpmc.St.left]
    simp [Mpmc.St.goto]
  | deqSeq p =>
    simp only [St.next, St.access, hp, hq, qnext] at hs
    cases hs
    right
    refine ⟨rfl, ?_⟩
    simp only [togo, hself, hq]
    by_cases hc : p = s.q.deqPos
    · subst hc
      have : s.q.seq (Mpmc.idx (capacity s.size) s.q.deqPos) = s.q.deqPos + 1 := by
        rw [idx_capacity h1 h2 h]
        refine (hi.full _ hr ?_).1
        cases hx : s.q.rel s.q.deqPos with
        | false => rfl
        | true => have := hi.relLt _ hx; omega
      rw [this]
      simp [Mpmc.deqNext, Mpmc.St.left, Mpmc.St.goto]
    · rcases deqNext_cases p (s.q.seq (Mpmc.idx (capacity s.size) p)) with e | e | e
      · exfalso
        obtain ⟨k, hk, ek, _⟩ := capacity_pow h1 h2
        have hm := hA.q
        rw [h.size_eq, ek] at hm e
        exact hc (Mpmc.C22_dequeue_fails_only_if_empty hk hm hq e).1
      · rw [e]; simp [Mpmc.St.left, Mpmc.St.goto, hc]
      · rw [e]; simp [Mpmc.St.left, hc]
  | deqReload =>
    simp only [St.next, St.access, hp, hq, qnext] at hs
    cases hs
    right
    refine ⟨rfl, ?_⟩
    simp [togo, hself, hq, Mpmc.St.left]
    simp [Mpmc.St.goto]
  | deqCas p =>
    simp only [St.next, St.access, hp, hq, qnext] at hs
    by_cases hc : s.q.deqPos = p
    · cases hs
      left
      simp [hc, hself, Mpmc.Pc.deqAt]
    · cases hs
      right
      have hc' : ¬ p = s.q.deqPos := fun h => hc h.symm
      simp [togo, hself, hq, hc, hc', Mpmc.St.left]
      simp [Mpmc.St.goto]
  | deqRead p => cases hn
  | deqPub p v => cases hn
  | _ => rcases hsy with hx | hx <;> cases hx

section
variable {σ : Nat → St} {act : Nat → Option (Nat × Choice)}

theorem Execution.reach (x : Execution size σ act) (n : Nat) : Reachable size (σ n) := by
  induction n with
  | zero => exact x.start
  | succ n ih =>
    cases ha : act n with
    | none => rw [x.rest n ha]; exact ih
    | some a => exact .step ih (x.step n a.1 a.2 ha)

/-- What does not change by a step of another thread does not change if the thread does nothing. -/
theorem Execution.other (x : Execution size σ act) {n : Nat} (h : ∀ c, act n ≠ some (u, c)) :
    (σ (n + 1)).pc u = (σ n).pc u ∧ (σ (n + 1)).q.pc u = (σ n).q.pc u := by
  cases ha : act n with
  | none => rw [x.rest n ha]; exact ⟨rfl, rfl⟩
  | some a =>
    obtain ⟨v, c⟩ := a
    have hv : u ≠ v := by rintro rfl; exact h c ha
    exact next_other (x.step n v c ha) hv

/-- A measure that no step raises and every step of `u` lowers. -/
theorem Fair.descent (f : Fair σ act) {n : Nat} {r : Nat → Nat} (hin : ∀ m, n ≤ m → (σ m).pc u ≠ .idle)
    (hle : ∀ m, n ≤ m → r (m + 1) ≤ r m) (hlt : ∀ m, n ≤ m → act m = some (u, .step) → r (m + 1) < r m) : False := by
  have mono : ∀ k m, n ≤ m → r (m + k) ≤ r m := by
    intro k
    induction k with
    | zero => intro m _; exact Nat.le_refl _
    | succ k ih =>
      intro m hm
      have := ih m hm
      have := hle (m + k) (by omega)
      rw [← Nat.add_assoc]; omega
  have key : ∀ b m, n ≤ m → r m ≤ b → False := by
    intro b
    induction b with
    | zero =>
      intro m hm hb
      obtain ⟨k, hk, ha⟩ := f.goes u m (fun j hj => hin j (by omega))
      have := hlt k (by omega) ha
      have := mono (k - m) m hm
      rw [show m + (k - m) = k by omega] at this
      omega
    | succ b ih =>
      intro m hm hb
      obtain ⟨k, hk, ha⟩ := f.goes u m (fun j hj => hin j (by omega))
      have := hlt k (by omega) ha
      have := mono (k - m) m hm
      rw [show m + (k - m) = k by omega] at this
      exact ih (k + 1) (by omega) (by omega)
  exact key (r n) n (Nat.le_refl _) (Nat.le_refl _)

/-- If no call returns from time `n` on, a thread in a call stays in it. -/
theorem stays {n : Nat} (hno : ∀ m, n ≤ m → ¬ Returns σ m) {m : Nat} (hm : n ≤ m) (hp : (σ m).pc u ≠ .idle) :
    ∀ k, m ≤ k → (σ k).pc u ≠ .idle := by
  intro k hk
  induction k with
  | zero => have : m = 0 := by omega
            subst this; exact hp
  | succ k ih =>
    by_cases e : m = k + 1
    · subst e; exact hp
    · intro h0
      exact hno k (by omega) ⟨u, ih (by omega), h0⟩

/-- If no call returns from time `n` on, no thread has claimed a position, or a chunk, from then on. -/
theorem unranked (x : Execution size σ act) (f : Fair σ act) {n : Nat} (hno : ∀ m, n ≤ m → ¬ Returns σ m) {m : Nat}
    (hm : n ≤ m) (u : Nat) : rank ((σ m).pc u) ((σ m).q.pc u) = 0 := by
  apply Classical.byContradiction
  intro hr
  have hp : (σ m).pc u ≠ .idle := by intro e; rw [e] at hr; simp [rank] at hr
  have hin := stays hno hm hp
  have pos : ∀ k, m ≤ k → 0 < rank ((σ k).pc u) ((σ k).q.pc u) ∧
      rank ((σ (k + 1)).pc u) ((σ (k + 1)).q.pc u) ≤ rank ((σ k).pc u) ((σ k).q.pc u) ∧
      0 < rank ((σ (k + 1)).pc u) ((σ (k + 1)).q.pc u) ∧
      ((∃ c, act k = some (u, c)) → rank ((σ (k + 1)).pc u) ((σ (k + 1)).q.pc u) < rank ((σ k).pc u) ((σ k).q.pc u)) := by
    have one : ∀ k, m ≤ k → 0 < rank ((σ k).pc u) ((σ k).q.pc u) →
        rank ((σ (k + 1)).pc u) ((σ (k + 1)).q.pc u) ≤ rank ((σ k).pc u) ((σ k).q.pc u) ∧
        0 < rank ((σ (k + 1)).pc u) ((σ (k + 1)).q.pc u) ∧
        ((∃ c, act k = some (u, c)) →
          rank ((σ (k + 1)).pc u) ((σ (k + 1)).q.pc u) < rank ((σ k).pc u) ((σ k).q.pc u)) := by
      intro k hk h0
      by_cases ha : ∃ c, act k = some (u, c)
      · obtain ⟨c, ha⟩ := ha
        rcases rank_next (x.step k u c ha) h0 with h | ⟨h3, h4⟩
        · exact absurd h (hin (k + 1) (by omega))
        · exact ⟨by omega, h3, fun _ => h4⟩
      · obtain ⟨e1, e2⟩ := x.other (u := u) (n := k) (fun c hc => ha ⟨c, hc⟩)
        rw [e1, e2]
        exact ⟨Nat.le_refl _, h0, fun h => absurd h ha⟩
    intro k hk
    have h0 : 0 < rank ((σ k).pc u) ((σ k).q.pc u) := by
      induction k with
      | zero => have : m = 0 := by omega
                subst this; omega
      | succ k ih =>
        by_cases e : m = k + 1
        · subst e; omega
        · exact (one k (by omega) (ih (by omega))).2.1
    exact ⟨h0, one k hk h0⟩
  exact f.descent (r := fun k => rank ((σ k).pc u) ((σ k).q.pc u)) hin (fun k hk => (pos k hk).2.1)
    fun k hk ha => (pos k hk).2.2.2 ⟨_, ha⟩

theorem frozen (h1 : 1 ≤ size) (h2 : size ≤ 2 ^ 32) (x : Execution size σ act) (f : Fair σ act) {n : Nat}
    (hno : ∀ m, n ≤ m → ¬ Returns σ m) {m : Nat} (hm : n ≤ m) :
    (σ (m + 1)).q.enqPos = (σ m).q.enqPos ∧ (σ (m + 1)).q.deqPos = (σ m).q.deqPos := by
  cases ha : act m with
  | none => rw [x.rest m ha]; exact ⟨rfl, rfl⟩
  | some a =>
    obtain ⟨u, c⟩ := a
    obtain ⟨A, hA⟩ := (x.reach (m + 1)).rel h1 h2 Unit
    have h0 := unranked x f hno (m := m + 1) (by omega) u
    have hp := next_pos (x.step m u c ha)
    refine ⟨hp.1.resolve_right fun h => ?_, hp.2.resolve_right fun h => ?_⟩
    · cases e : ((σ (m + 1)).q.pc u).enqAt with
      | none => exact h e
      | some p => have := rank_enqAt hA e; omega
    · cases e : ((σ (m + 1)).q.pc u).deqAt with
      | none => exact h e
      | some p => have := rank_deqAt hA e; omega

theorem togo_same {a b : St} (hq : b.q.pc t = a.q.pc t) (h1 : b.q.enqPos = a.q.enqPos) (h2 : b.q.deqPos = a.q.deqPos) :
    togo b t = togo a t := by
  unfold togo
  rw [hq]
  generalize a.q.pc t = p
  cases p <;> simp only [Mpmc.St.left, h1, h2]

theorem give_next {i : Nat} (hp : s.pc t = .give i) (hn : (s.q.pc t).enqAt = none) (hs : s.next t c = .to s') :
    s'.pc t = .give i := by
  have acc : ∀ sp, s.access t sp = .to s' → s'.pc t = .give i := by
    intro sp hs
    simp only [St.access, hp] at hs
    split at hs <;> cases hs
    · exact hp
    · rename_i hq; rw [hq] at hn; cases hn
    · exact hp
  cases c with
  | step => exact acc _ hs
  | spurious => exact acc _ hs
  | get => simp only [St.next, hp] at hs; split at hs <;> cases hs; contradiction
  | ret i => simp only [St.next, hp] at hs; split at hs <;> cases hs; rename_i h; cases h.1

theorem take_next (hp : s.pc t = .take) (hn : (s.q.pc t).deqAt = none) (hs : s.next t c = .to s') : s'.pc t = .take := by
  have acc : ∀ sp, s.access t sp = .to s' → s'.pc t = .take := by
    intro sp hs
    simp only [St.access, hp] at hs
    split at hs <;> cases hs
    · exact hp
    · rename_i hq; rw [hq] at hn; cases hn
    · exact hp
  cases c with
  | step => exact acc _ hs
  | spurious => exact acc _ hs
  | get => simp only [St.next, hp] at hs; split at hs <;> cases hs; contradiction
  | ret i => simp only [St.next, hp] at hs; split at hs <;> cases hs; rename_i h; cases h.1

/-- Nobody has claimed a position: then nothing is in the way of a thread that is returning a chunk. -/
theorem ready_of_unranked (h1 : 1 ≤ size) (h2 : size ≤ 2 ^ 32) (h : Reachable size s) {i : Nat} (hp : s.pc t = .give i)
    (h0 : ∀ u, rank (s.pc u) (s.q.pc u) = 0) : (s.q.pc t).enqAt = none ∧ s.ready := by
  obtain ⟨A, hA⟩ := h.rel h1 h2 Unit
  have hi := h.inv h1 h2
  have hn : (s.q.pc t).enqAt = none := by
    cases e : (s.q.pc t).enqAt with
    | none => rfl
    | some p => have := rank_enqAt hA e; rw [h0 t] at this; omega
  refine ⟨hn, fun hge => ?_⟩
  cases hrel : s.q.rel (s.q.enqPos - capacity s.size) with
  | true => rfl
  | false =>
    obtain ⟨k, hk, ek, hsz⟩ := capacity_pow h1 h2
    have hlt := hA.items_lt (t := t) (i := i) (by
      have hsy := hA.sync t
      rw [hp] at hsy
      rcases hsy with hx | ⟨p, hx⟩ | hx | ⟨p, hx⟩ | ⟨p, hx⟩ | ⟨p, hx⟩
      case inr.inr.inr.inr.inl => rw [hx] at hn; cases hn
      case inr.inr.inr.inr.inr => rw [hx] at hn; cases hn
      all_goals rw [St.hand_eq hp hx]; rfl)
    have e := h.size_eq
    have hlt' : s.q.enqPos - capacity s.size < s.q.deqPos := by
      rw [Mpmc.St.items, List.length_drop, hi.len] at hlt
      rw [e, ek] at hge ⊢
      omega
    obtain ⟨u, hu⟩ := hi.rex _ hlt' hrel
    have := rank_deqAt hA hu
    rw [h0 u] at this; omega

theorem pub_of_unranked (h1 : 1 ≤ size) (h2 : size ≤ 2 ^ 32) (h : Reachable size s)
    (h0 : ∀ u, rank (s.pc u) (s.q.pc u) = 0) (hlt : s.q.deqPos < s.q.enqPos) : s.q.pub s.q.deqPos = true := by
  obtain ⟨A, hA⟩ := h.rel h1 h2 Unit
  cases e : s.q.pub s.q.deqPos with
  | true => rfl
  | false =>
    obtain ⟨u, hu⟩ := (h.inv h1 h2).wex _ hlt e
    have := rank_enqAt hA hu
    rw [h0 u] at this; omega

theorem give_false (h1 : 1 ≤ size) (h2 : size ≤ 2 ^ 32) (x : Execution size σ act) (f : Fair σ act) {n : Nat}
    (hno : ∀ m, n ≤ m → ¬ Returns σ m) {m i : Nat} (hm : n ≤ m) (hp : (σ m).pc t = .give i) : False := by
  obtain ⟨N, hN⟩ := f.calm t
  have gv : ∀ k, m ≤ k → (σ k).pc t = .give i := by
    intro k hk
    induction k with
    | zero => have : m = 0 := by omega
              subst this; exact hp
    | succ k ih =>
      by_cases e : m = k + 1
      · subst e; exact hp
      · have hk' := ih (by omega)
        by_cases ha : ∃ c, act k = some (t, c)
        · obtain ⟨c, ha⟩ := ha
          exact give_next hk' (ready_of_unranked h1 h2 (x.reach k) hk' (unranked x f hno (by omega))).1 (x.step k t c ha)
        · rw [(x.other (u := t) (n := k) (fun c hc => ha ⟨c, hc⟩)).1]; exact hk'
  refine f.descent (u := t) (n := max m N) (r := fun k => togo (σ k) t) (fun k hk => by rw [gv k (by omega)]; simp) ?_ ?_
  · intro k hk
    by_cases ha : ∃ c, act k = some (t, c)
    · obtain ⟨c, ha⟩ := ha
      have hs := x.step k t c ha
      obtain ⟨r1, r2⟩ := ready_of_unranked h1 h2 (x.reach k) (gv k (by omega)) (unranked x f hno (by omega))
      cases c with
      | step =>
        rcases togo_give h1 h2 (x.reach k) r2 (gv k (by omega)) r1 hs with h | h
        · exact absurd (ready_of_unranked h1 h2 (x.reach (k + 1)) (gv (k + 1) (by omega)) (unranked x f hno (by omega))).1 h
        · exact Nat.le_of_lt h.2
      | spurious => exact absurd ha (hN k (by omega))
      | get => simp [St.next, gv k (by omega)] at hs
      | ret j => simp [St.next, gv k (by omega)] at hs
    · have e := x.other (u := t) (n := k) (fun c hc => ha ⟨c, hc⟩)
      have fz := frozen h1 h2 x f hno (m := k) (by omega)
      exact Nat.le_of_eq (togo_same e.2 fz.1 fz.2)
  · intro k hk ha
    have hs := x.step k t _ ha
    obtain ⟨r1, r2⟩ := ready_of_unranked h1 h2 (x.reach k) (gv k (by omega)) (unranked x f hno (by omega))
    rcases togo_give h1 h2 (x.reach k) r2 (gv k (by omega)) r1 hs with h | h
    · exact absurd (ready_of_unranked h1 h2 (x.reach (k + 1)) (gv (k + 1) (by omega)) (unranked x f hno (by omega))).1 h
    · exact h.2

theorem untaken (h1 : 1 ≤ size) (h2 : size ≤ 2 ^ 32) (h : Reachable size s) (h0 : ∀ u, rank (s.pc u) (s.q.pc u) = 0) :
    (s.q.pc t).deqAt = none := by
  obtain ⟨A, hA⟩ := h.rel h1 h2 Unit
  cases e : (s.q.pc t).deqAt with
  | none => rfl
  | some p => have := rank_deqAt hA e; rw [h0 t] at this; omega

theorem take_stays (h1 : 1 ≤ size) (h2 : size ≤ 2 ^ 32) (x : Execution size σ act) (f : Fair σ act) {n : Nat}
    (hno : ∀ m, n ≤ m → ¬ Returns σ m) {m : Nat} (hm : n ≤ m) (hp : (σ m).pc t = .take) :
    ∀ k, m ≤ k → (σ k).pc t = .take := by
  intro k hk
  induction k with
  | zero => have : m = 0 := by omega
            subst this; exact hp
  | succ k ih =>
    by_cases e : m = k + 1
    · subst e; exact hp
    · have hk' := ih (by omega)
      by_cases ha : ∃ c, act k = some (t, c)
      · obtain ⟨c, ha⟩ := ha
        exact take_next hk' (untaken h1 h2 (x.reach k) (unranked x f hno (by omega))) (x.step k t c ha)
      · rw [(x.other (u := t) (n := k) (fun c hc => ha ⟨c, hc⟩)).1]; exact hk'

/-- If nobody gets through, a thread waits in `getChunk` only at an empty queue. -/
theorem take_empty (h1 : 1 ≤ size) (h2 : size ≤ 2 ^ 32) (x : Execution size σ act) (f : Fair σ act) {n : Nat}
    (hno : ∀ m, n ≤ m → ¬ Returns σ m) {m : Nat} (hm : n ≤ m) (hp : (σ m).pc t = .take) :
    ¬ (σ m).q.deqPos < (σ m).q.enqPos := by
  intro hlt
  obtain ⟨N, hN⟩ := f.calm t
  have tk := take_stays h1 h2 x f hno hm hp
  have lt : ∀ k, m ≤ k → (σ k).q.deqPos < (σ k).q.enqPos := by
    intro k hk
    induction k with
    | zero => have : m = 0 := by omega
              subst this; exact hlt
    | succ k ih =>
      by_cases e : m = k + 1
      · subst e; exact hlt
      · have fz := frozen h1 h2 x f hno (m := k) (by omega)
        rw [fz.1, fz.2]; exact ih (by omega)
  have pb : ∀ k, m ≤ k → (σ k).q.pub (σ k).q.deqPos = true := fun k hk =>
    pub_of_unranked h1 h2 (x.reach k) (unranked x f hno (by omega)) (lt k hk)
  have un : ∀ k, m ≤ k → ((σ k).q.pc t).deqAt = none := fun k hk =>
    untaken h1 h2 (x.reach k) (unranked x f hno (by omega))
  refine f.descent (u := t) (n := max m N) (r := fun k => togo (σ k) t) (fun k hk => by rw [tk k (by omega)]; simp) ?_ ?_
  · intro k hk
    by_cases ha : ∃ c, act k = some (t, c)
    · obtain ⟨c, ha⟩ := ha
      have hs := x.step k t c ha
      cases c with
      | step =>
        rcases togo_take h1 h2 (x.reach k) (pb k (by omega)) (tk k (by omega)) (un k (by omega)) hs with h | h
        · exact absurd (un (k + 1) (by omega)) h
        · exact Nat.le_of_lt h.2
      | spurious => exact absurd ha (hN k (by omega))
      | get => simp [St.next, tk k (by omega)] at hs
      | ret j => simp [St.next, tk k (by omega)] at hs
    · have e := x.other (u := t) (n := k) (fun c hc => ha ⟨c, hc⟩)
      have fz := frozen h1 h2 x f hno (m := k) (by omega)
      exact Nat.le_of_eq (togo_same e.2 fz.1 fz.2)
  · intro k hk ha
    have hs := x.step k t _ ha
    rcases togo_take h1 h2 (x.reach k) (pb k (by omega)) (tk k (by omega)) (un k (by omega)) hs with h | h
    · exact absurd (un (k + 1) (by omega)) h
    · exact h.2

/-- C99: the ring buffer has no livelock. As long as some thread is in a call, under a fair scheduler some call
returns again; or from some time on every chunk is held by a thread that does not return it. -/
theorem C99_progress (h1 : 1 ≤ size) (h2 : size ≤ 2 ^ 32) (x : Execution size σ act) (f : Fair σ act) {n : Nat}
    (hp : (σ n).pc t ≠ .idle) :
    (∃ m, n ≤ m ∧ Returns σ m) ∨ ∃ N, ∀ m, N ≤ m → ∀ i, i < size → ∃ u, (u, i) ∈ (σ m).holds := by
  by_cases hret : ∃ m, n ≤ m ∧ Returns σ m
  · exact Or.inl hret
  right
  have hno : ∀ m, n ≤ m → ¬ Returns σ m := fun m hm h => hret ⟨m, hm, h⟩
  have hin := stays hno (Nat.le_refl n) hp
  have wait : ∃ N, n ≤ N ∧ (σ N).pc t = .take := by
    have sort : ∀ m, n ≤ m → (σ m).pc t = .count ∨ (σ m).pc t = .take := by
      intro m hm
      have h0 := unranked x f hno hm t
      have h3 := hin m hm
      generalize hpp : (σ m).pc t = pp at h0 h3
      cases pp with
      | idle => exact absurd rfl h3
      | count => exact Or.inl rfl
      | take => exact Or.inr rfl
      | reset o => simp [rank] at h0
      | lend i => simp [rank] at h0
      | unlend => simp [rank] at h0
      | give i => exact absurd hpp (fun h => give_false h1 h2 x f hno hm h)
    apply Classical.byContradiction
    intro hnone
    have cnt : ∀ m, n ≤ m → (σ m).pc t = .count := fun m hm =>
      (sort m hm).resolve_right fun h => hnone ⟨m, hm, h⟩
    obtain ⟨m, hm, ha⟩ := f.goes t n hin
    have hs := x.step m t _ ha
    simp only [St.next, St.access, cnt m hm] at hs
    have hc := cnt (m + 1) (by omega)
    have : (σ (m + 1)).pc t ≠ .count := by
      generalize σ (m + 1) = s' at hs
      cases hs
      show ((σ m).goto t _).pc t ≠ _
      rw [goto_pc]
      split <;> simp
    exact this hc
  obtain ⟨N, hN, htk⟩ := wait
  refine ⟨N, fun m hm i hi => ?_⟩
  have tk := take_stays h1 h2 x f hno hN htk m hm
  have hemp := take_empty h1 h2 x f hno (m := m) (by omega) tk
  obtain ⟨A, hA⟩ := (x.reach m).rel h1 h2 Unit
  have h0 := unranked x f hno (m := m) (by omega)
  have hd : ((σ m).q.pc t).deqAt = none := untaken h1 h2 (x.reach m) h0
  have hw : t ∈ A.waiting := (hA.wait t).2 (by
    generalize hq : (σ m).q.pc t = qp at hd
    have hsy := hA.sync t
    rw [tk, hq] at hsy
    rw [St.waits_eq tk hq]
    cases qp <;> first | rfl | (cases hd; done) | (rcases hsy with hx | hx <;> cases hx; done))
  have hqe : A.b.queue = [] := by
    rw [hA.queue, Mpmc.St.items, List.drop_eq_nil_iff, ((x.reach m).inv h1 h2).len]; omega
  have hst : A.step (.take t) = none := by
    simp only [RingSys.step, if_pos hw, Buffer.ringTake, hqe]
  obtain ⟨_, hall⟩ := C18_waits_only_if_all_loaned hA.reach t hw hst
  obtain ⟨u, hu⟩ := hall i (by rw [(x.reach m).size_eq]; exact hi)
  refine ⟨u, ?_⟩
  have hu0 := h0 u
  rcases has_iff.2 ((hA.holds u i).1 hu) with h | h | h | ⟨h, _⟩ | ⟨h, pos, h', _⟩
  · exact h
  · rw [h] at hu0; simp [rank] at hu0
  · rw [h] at hu0; simp [rank] at hu0
  · exact absurd h (fun h => give_false h1 h2 x f hno (m := m) (by omega) h)
  · have := rank_deqAt hA h'; omega

theorem in_call (h : Reachable size s) : ∃ L : List Nat, ∀ u, s.pc u ≠ .idle → u ∈ L := by
  induction h with
  | init => exact ⟨[], fun u h => absurd rfl h⟩
  | @step s s' t c _ hs ih =>
    obtain ⟨L, hL⟩ := ih
    refine ⟨t :: L, fun u hu => ?_⟩
    by_cases e : u = t
    · subst e; simp
    · rw [(next_other hs e).1] at hu; exact List.mem_cons_of_mem _ (hL u hu)

/-- C99: if no call begins from time `n` on, all calls return, unless every chunk is held for good by a thread that does
not return it. -/
theorem C99_all_return (h1 : 1 ≤ size) (h2 : size ≤ 2 ^ 32) (x : Execution size σ act) (f : Fair σ act) {n : Nat}
    (hnew : ∀ m u c, n ≤ m → act m = some (u, c) → c = .step ∨ c = .spurious) :
    (∃ m, n ≤ m ∧ ∀ u, (σ m).pc u = .idle) ∨ ∃ N, ∀ m, N ≤ m → ∀ i, i < size → ∃ u, (u, i) ∈ (σ m).holds := by
  have quiet : ∀ m u, n ≤ m → (σ m).pc u = .idle → ∀ k, m ≤ k → (σ k).pc u = .idle := by
    intro m u hm hp k hk
    induction k with
    | zero => have : m = 0 := by omega
              subst this; exact hp
    | succ k ih =>
      by_cases e : m = k + 1
      · subst e; exact hp
      · have hk' := ih (by omega)
        by_cases ha : ∃ c, act k = some (u, c)
        · obtain ⟨c, ha⟩ := ha
          have hs := x.step k u c ha
          rcases hnew k u c (by omega) ha with rfl | rfl <;> simp [St.next, St.access, hk'] at hs
        · rw [(x.other (u := u) (n := k) (fun c hc => ha ⟨c, hc⟩)).1]; exact hk'
  have key : ∀ b (L : List Nat) m, L.length ≤ b → n ≤ m → (∀ u, (σ m).pc u ≠ .idle → u ∈ L) →
      (∃ k, n ≤ k ∧ ∀ u, (σ k).pc u = .idle) ∨ ∃ N, ∀ m, N ≤ m → ∀ i, i < size → ∃ u, (u, i) ∈ (σ m).holds := by
    intro b
    induction b with
    | zero =>
      intro L m hb hm hL
      left
      refine ⟨m, hm, fun u => Classical.byContradiction fun hu => ?_⟩
      have := List.length_pos_of_mem (hL u hu)
      omega
    | succ b ih =>
      intro L m hb hm hL
      by_cases hall : ∀ u, (σ m).pc u = .idle
      · exact Or.inl ⟨m, hm, hall⟩
      · have : ∃ u, (σ m).pc u ≠ .idle := Classical.byContradiction fun h =>
          hall fun u => Classical.byContradiction fun hu => h ⟨u, hu⟩
        obtain ⟨u, hu⟩ := this
        rcases C99_progress h1 h2 x f hu with ⟨k, hk, v, hv, hv'⟩ | h
        · have hvL : v ∈ L := hL v fun h => hv (quiet m v hm h k hk)
          refine ih (L.filter (· ≠ v)) (k + 1) ?_ (by omega) ?_
          · have : (L.filter (fun w => decide (w ≠ v))).length < L.length :=
              List.length_filter_lt_length_iff_exists.2 ⟨v, hvL, by simp⟩
            omega
          · intro w hw
            refine List.mem_filter.2 ⟨hL w fun h => hw (quiet m w hm h (k + 1) (by omega)), ?_⟩
            have : w ≠ v := by rintro rfl; exact hw hv'
            simpa using this
        · exact Or.inr h
  obtain ⟨L, hL⟩ := in_call (x.reach n)
  exact key L.length L n (Nat.le_refl _) (Nat.le_refl _) hL

end

/-! ### Starvation -/

theorem run_append {l1 l2 : List (Nat × Choice)} {s1 : St} (h : s.run l1 = .to s1) : s.run (l1 ++ l2) = s1.run l2 := by
  induction l1 generalizing s with
  | nil => cases h; rfl
  | cons p l1 ih =>
    obtain ⟨v, c⟩ := p
    simp only [List.cons_append, St.run] at h ⊢
    split at h
    · exact ih h
    · rename_i hs; exact absurd h (hs _)

theorem run_other {l : List (Nat × Choice)} (h : s.run l = .to s') (hl : ∀ p ∈ l, p.1 ≠ u) :
    s'.pc u = s.pc u ∧ s'.q.pc u = s.q.pc u := by
  induction l generalizing s with
  | nil => cases h; exact ⟨rfl, rfl⟩
  | cons p l ih =>
    obtain ⟨v, c⟩ := p
    simp only [St.run] at h
    split at h
    · rename_i s1 hs
      have hv : u ≠ v := fun e => hl (v, c) (by simp) e.symm
      have := ih h fun p hp => hl p (List.mem_cons_of_mem _ hp)
      rw [this.1, this.2]
      exact next_other hs hv
    · rename_i hs; exact absurd h (hs _)

/-- Thread 0 has the only chunk, thread 1 is about to look into the queue. -/
def Starving (s : St) : Prop :=
  Reachable 1 s ∧ (∀ u, u ≠ 1 → s.pc u = .idle) ∧ (0, 0) ∈ s.holds ∧ s.pc 1 = .take ∧ s.q.pc 1 = .idle

theorem Starving.round (h : Starving s) : ∃ l s', s.run l = .to s' ∧ Starving s' ∧ (0, .get) ∈ l ∧ (0, .ret 0) ∈ l ∧
    (1, .step) ∈ l ∧ (∀ p ∈ l, p.2 ≠ .spurious) ∧ ∀ p ∈ l, p.1 = 1 → p = (1, .step) := by
  obtain ⟨hr, hidle, hh, hp1, hq1⟩ := h
  have hp0 := hidle 0 (by omega)
  have one2 : (1 : Nat) ≤ 2 ^ 32 := by omega
  obtain ⟨A, hA⟩ := hr.rel (Nat.le_refl 1) one2 Unit
  have hi := hr.inv (Nat.le_refl 1) one2
  obtain ⟨k, hk, ek, _⟩ := capacity_pow (Nat.le_refl 1) one2
  -- the queue is empty
  have hemp : s.q.deqPos = s.q.enqPos := by
    have hm := (hA.holds 0 0).2 (Or.inl hh)
    have hl := (ringInv hA.reach).perm.length_eq
    simp only [List.length_append, List.length_map, List.length_range, List.length_range'] at hl
    rw [hA.queue, Mpmc.St.items, List.length_drop, hi.len, hr.size_eq] at hl
    have := List.length_pos_of_mem hm
    have := hi.deqLe
    omega
  -- thread 1 looks
  let a : St := { s with q := s.q.goto 1 (.deqSeq s.q.deqPos) }
  have ha : s.next 1 .step = .to a := by simp [St.next, St.access, hp1, hq1, a]
  have hra : Reachable 1 a := .step hr ha
  have hqa : a.q.pc 1 = .deqSeq a.q.deqPos := Mpmc.goto_self _ _ _
  have hpa : a.pc 1 = .take := hp1
  let b : St := { a with q := qnext (capacity a.size) a.q 1 false }
  have hb : a.next 1 .step = .to b := by simp [St.next, St.access, hpa, hqa, b]
  have hrb : Reachable 1 b := .step hra hb
  have hqb : b.q.pc 1 = .idle := by
    have hia := hra.inv (Nat.le_refl 1) one2
    have hcap : 1 ≤ capacity a.size := by rw [hra.size_eq, ek]; exact Nat.one_le_two_pow
    have : ((qnext (capacity a.size) a.q 1 false).pc 1) =
        (Mpmc.deqNext a.q.deqPos (a.q.seq (a.q.deqPos % capacity a.size)) : Mpmc.Pc Nat) := by
      simp only [qnext, hqa]
      rw [Mpmc.goto_self, idx_capacity (Nat.le_refl 1) one2 hra]
    show (qnext (capacity a.size) a.q 1 false).pc 1 = .idle
    rw [this]
    rcases Mpmc.deqNext_fresh hia hcap with e | e
    · exfalso
      have hpc : b.q.pc 1 = .deqCas a.q.deqPos := by
        show (qnext (capacity a.size) a.q 1 false).pc 1 = _
        rw [this, e]
      have := (hrb.inv (Nat.le_refl 1) one2).pcs 1
      rw [hpc] at this
      have h4 := (hrb.inv (Nat.le_refl 1) one2).pubLt _ this.2
      have h5 : b.q.enqPos = s.q.enqPos := by
        show (qnext (capacity a.size) a.q 1 false).enqPos = _
        simp only [qnext, hqa]; rfl
      have h6 : a.q.deqPos = s.q.deqPos := rfl
      omega
    · exact e
  have hpb : b.pc 1 = .take := hp1
  have hb0 : b.pc 0 = .idle := hp0
  have hbh : (0, 0) ∈ b.holds := hh
  -- thread 0 returns its chunk
  let c : St := { b.goto 0 (.give 0) with holds := b.holds.erase (0, 0) }
  have hc : b.next 0 (.ret 0) = .to c := by simp [St.next, hb0, hbh, c]
  have hrc : Reachable 1 c := .step hrb hc
  have hpc : c.pc 0 = .give 0 := goto_pc b 0 _
  have qidle : ∀ {x : St} {u : Nat}, Reachable 1 x → x.pc u = .idle → x.q.pc u = .idle := by
    intro x u hx hu
    obtain ⟨B, hB⟩ := hx.rel (Nat.le_refl 1) one2 Unit
    have := hB.sync u
    rw [hu] at this; exact this
  have hcu : ∀ u, u ≠ 0 → u ≠ 1 → c.pc u = .idle := fun u h0 h1 => (goto_pc_ne b _ h0).trans (hidle u h1)
  have hc1 : c.pc 1 = .take := (goto_pc_ne b (.give 0) (show (1 : Nat) ≠ 0 by omega)).trans hpb
  have hcq : c.q = b.q := rfl
  have hc0 : ∀ u, rank (c.pc u) (c.q.pc u) = 0 := by
    intro u
    by_cases h0 : u = 0
    · subst h0; rw [hpc, hcq, qidle hrb hb0]; rfl
    · by_cases h1 : u = 1
      · subst h1; rw [hc1, hcq, hqb]; rfl
      · rw [hcu u h0 h1]; rfl
  obtain ⟨m1, d, _, hrun1, hd0, hdh⟩ := done_give (Nat.le_refl 1) one2 hrc hpc
    (Or.inl (ready_of_unranked (Nat.le_refl 1) one2 hrc hpc hc0).2)
  have mine : ∀ n, ∀ p ∈ steps 0 n, p.1 = 0 := fun n p hp => by rw [List.eq_of_mem_replicate hp]
  have hdo : ∀ u, u ≠ 0 → d.pc u = c.pc u ∧ d.q.pc u = c.q.pc u := fun u hu =>
    run_other hrun1 fun p hp e => hu (by rw [← e, mine _ p hp])
  have hrd : Reachable 1 d := run_reachable hrc hrun1
  -- nobody has the chunk
  have hfree : ∀ u, (u, 0) ∉ d.holds := by
    intro u hu
    rw [hdh] at hu
    obtain ⟨B, hB⟩ := hrb.rel (Nat.le_refl 1) one2 Unit
    have hm : (u, 0) ∈ b.holds.erase (0, 0) := hu
    rw [hB.nodup.mem_erase_iff] at hm
    have := (C98_exclusive (Nat.le_refl 1) one2 hrb (t := 0) (i := 0) (Or.inl hbh)).1 u (Or.inl hm.2)
    exact hm.1 (by rw [this])
  -- thread 0 asks for a chunk
  let e : St := d.goto 0 .count
  have he : d.next 0 .get = .to e := by simp [St.next, hd0, e]
  have hre : Reachable 1 e := .step hrd he
  have hpe : e.pc 0 = .count := goto_pc d 0 _
  obtain ⟨f, hf⟩ := C98_never_blocked (t := 0) (Nat.le_refl 1) one2 hre (by rw [hpe]; simp)
  have hrf : Reachable 1 f := .step hre hf
  have ef : f = { e.goto 0 (if e.counter ≥ e.size then .take else .reset (some e.counter)) with
      counter := e.counter + 1 } := by
    simp only [St.next, St.access, hpe] at hf
    cases hf; rfl
  have hfq : f.q = d.q := by rw [ef]; rfl
  have hfh : f.holds = d.holds := by rw [ef]; rfl
  have hfo : ∀ u, u ≠ 0 → f.pc u = c.pc u ∧ f.q.pc u = c.q.pc u := by
    intro u hu
    have h1 := next_other hf hu
    have h2 : e.pc u = d.pc u := goto_pc_ne d _ hu
    exact ⟨by rw [h1.1, h2, (hdo u hu).1], by rw [h1.2]; exact (hdo u hu).2⟩
  have hf0q : f.q.pc 0 = .idle := by rw [hfq]; exact qidle hrd hd0
  have hgets : Gets f 0 8 := by
    by_cases hct : e.counter ≥ e.size
    · rw [if_pos hct] at ef
      have hpf : f.pc 0 = .take := by rw [ef]; exact goto_pc e 0 _
      have hf0 : ∀ u, rank (f.pc u) (f.q.pc u) = 0 := by
        intro u
        by_cases h0 : u = 0
        · subst h0; rw [hpf, hf0q]; rfl
        · rw [(hfo u h0).1, (hfo u h0).2]; exact hc0 u
      refine done_take (Nat.le_refl 1) one2 hrf hpf (Or.inl (pub_of_unranked (Nat.le_refl 1) one2 hrf hf0 ?_))
      apply Classical.byContradiction
      intro hlt
      obtain ⟨B, hB⟩ := hrf.rel (Nat.le_refl 1) one2 Unit
      have hw : 0 ∈ B.waiting := (hB.wait 0).2 (by rw [St.waits_eq hpf hf0q]; rfl)
      have hqe : B.b.queue = [] := by
        rw [hB.queue, Mpmc.St.items, List.drop_eq_nil_iff, (hrf.inv (Nat.le_refl 1) one2).len]; omega
      have hst : B.step (.take 0) = none := by
        simp only [RingSys.step, if_pos hw, Buffer.ringTake, hqe]
      obtain ⟨_, hall⟩ := C18_waits_only_if_all_loaned hB.reach 0 hw hst
      obtain ⟨u, hu⟩ := hall 0 (by rw [hrf.size_eq]; omega)
      have hu0 := hf0 u
      rcases has_iff.2 ((hB.holds u 0).1 hu) with h | h | h | ⟨h, _⟩ | ⟨_, pos, h', _⟩
      · rw [hfh] at h; exact hfree u h
      · rw [h] at hu0; simp [rank] at hu0
      · rw [h] at hu0; simp [rank] at hu0
      · by_cases h0 : u = 0
        · subst h0; rw [hpf] at h; cases h
        · rw [(hfo u h0).1] at h
          by_cases h1 : u = 1
          · subst h1; rw [hc1] at h; cases h
          · rw [hcu u h0 h1] at h; cases h
      · have := rank_deqAt hB h'; omega
    · rw [if_neg hct] at ef
      exact (done_reset (Nat.le_refl 1) one2 hrf (by rw [ef]; exact goto_pc e 0 _)).mono (by omega)
  obtain ⟨m2, g, _, hrun2, hg0, i, hgi⟩ := hgets
  have hrg : Reachable 1 g := run_reachable hrf hrun2
  have hgo : ∀ u, u ≠ 0 → g.pc u = c.pc u ∧ g.q.pc u = c.q.pc u := by
    intro u hu
    have h1 := run_other hrun2 (u := u) fun p hp e => hu (by rw [← e, mine _ p hp])
    exact ⟨by rw [h1.1, (hfo u hu).1], by rw [h1.2, (hfo u hu).2]⟩
  have hi0 : i = 0 := by
    have := (C98_exclusive (Nat.le_refl 1) one2 hrg (t := 0) (i := i) (Or.inl hgi)).2.1
    omega
  subst hi0
  refine ⟨[(1, .step), (1, .step), (0, .ret 0)] ++ (steps 0 m1 ++ ([(0, .get), (0, .step)] ++ steps 0 m2)), g, ?_, ?_, ?_, ?_, ?_, ?_, ?_⟩
  · have r1 : s.run [(1, .step), (1, .step), (0, .ret 0)] = .to c := by simp only [St.run, ha, hb, hc]
    have r2 : d.run [(0, .get), (0, .step)] = .to f := by simp only [St.run, he, hf]
    rw [run_append r1, run_append hrun1, run_append r2]
    exact hrun2
  · refine ⟨hrg, fun u hu => ?_, hgi, ?_, ?_⟩
    · by_cases h0 : u = 0
      · subst h0; exact hg0
      · rw [(hgo u h0).1]; exact hcu u h0 hu
    · rw [(hgo 1 (by omega)).1]; exact hc1
    · rw [(hgo 1 (by omega)).2, hcq]; exact hqb
  · simp
  · simp
  · simp
  · intro p hp
    simp only [List.mem_append, List.mem_cons, List.not_mem_nil, or_false] at hp
    rcases hp with (rfl | rfl | rfl) | hp | (rfl | rfl) | hp
    all_goals first | (simp; done) | (rw [List.eq_of_mem_replicate hp]; simp)
  · intro p hp h1
    simp only [List.mem_append, List.mem_cons, List.not_mem_nil, or_false] at hp
    rcases hp with (rfl | rfl | rfl) | hp | (rfl | rfl) | hp
    all_goals first | rfl | (cases h1; done) | (rw [mine _ p hp] at h1; cases h1)

/-- C99, what no scheduler promises: a call of `getChunk` can go round any number of times while another thread gets
and returns the only chunk each time, although no thread stands still and no compare-exchange fails. -/
theorem C99_refuted_starvation (n : Nat) : ∃ l s', (St.init 1).run l = .to s' ∧ s'.pc 1 = .take ∧
    l.count (1, .get) = 1 ∧ n ≤ l.count (1, .step) ∧ n ≤ l.count (0, .get) ∧ n ≤ l.count (0, .ret 0) ∧
    ∀ p ∈ l, p.2 ≠ .spurious := by
  have key : ∀ n, ∃ l s', (St.init 1).run l = .to s' ∧ Starving s' ∧
      l.count (1, .get) = 1 ∧ n ≤ l.count (1, .step) ∧ n ≤ l.count (0, .get) ∧ n ≤ l.count (0, .ret 0) ∧
      ∀ p ∈ l, p.2 ≠ .spurious := by
    intro n
    induction n with
    | zero =>
      obtain ⟨s, hr, hp⟩ := check_run (size := 1) (l := (0, .get) :: steps 0 3 ++ [(1, .get), (1, .step)]) (p := fun s =>
        s.pc 0 == .idle && s.holds == [(0, 0)] && s.pc 1 == .take && (s.q.pc 1).claimed == false &&
        (s.q.pc 1).inEnq == false && (s.q.pc 1).inDeq == false) (by decide +kernel)
      simp only [Bool.and_eq_true, beq_iff_eq] at hp
      refine ⟨_, s, hr, ⟨run_reachable .init hr, fun u hu => ?_, by rw [hp.1.1.1.1.2]; simp, hp.1.1.1.2, ?_⟩, ?_, ?_, ?_, ?_, ?_⟩
      · by_cases h0 : u = 0
        · subst h0; exact hp.1.1.1.1.1
        · have := run_other hr (u := u) (fun p hp e => by
            simp [steps] at hp
            rcases hp with rfl | rfl | rfl | rfl <;> simp_all)
          rw [this.1]; rfl
      · generalize s.q.pc 1 = q at hp
        cases q <;> first | rfl | simp [Mpmc.Pc.inEnq, Mpmc.Pc.inDeq] at hp
      · decide +kernel
      · exact Nat.zero_le _
      · exact Nat.zero_le _
      · exact Nat.zero_le _
      · intro p hp
        simp [steps] at hp
        rcases hp with rfl | rfl | rfl | rfl <;> simp
    | succ n ih =>
      obtain ⟨l, s, hr, hst, c1, c2, c3, c4, c5⟩ := ih
      obtain ⟨l', s', hr', hst', m1, m2, m3, m4, m5⟩ := hst.round
      refine ⟨l ++ l', s', by rw [run_append hr]; exact hr', hst', ?_, ?_, ?_, ?_, ?_⟩
      · rw [List.count_append, c1, List.count_eq_zero.2 fun h => by cases m5 _ h rfl]
      · rw [List.count_append]; have := List.count_pos_iff.2 m3; omega
      · rw [List.count_append]; have := List.count_pos_iff.2 m1; omega
      · rw [List.count_append]; have := List.count_pos_iff.2 m2; omega
      · intro p hp
        rcases List.mem_append.1 hp with hp | hp
        · exact c5 p hp
        · exact m4 p hp
  obtain ⟨l, s', hr, hst, h⟩ := key n
  exact ⟨l, s', hr, hst.2.2.2.1, h⟩

/-! ### Executions that meet the hypotheses -/

/-- A chunk for thread 0, and then nothing more. -/
def one : List (Nat × Choice) := (0, .get) :: steps 0 3

/-- The state after `l`. -/
def after (size : Nat) (l : List (Nat × Choice)) : St :=
  match (St.init size).run l with
  | .to s => s
  | _ => St.init size

/-- The first alternative: thread 0 is in a call at time 1, and its call returns. -/
example : Execution 1 (fun n => after 1 (one.take n)) (fun n => one[n]?) ∧
    Fair (fun n => after 1 (one.take n)) (fun n => one[n]?) ∧ (after 1 (one.take 1)).pc 0 ≠ .idle ∧
    Returns (fun n => after 1 (one.take n)) 3 := by
  have big : ∀ n, 4 ≤ n → one.take n = one := fun n hn => List.take_of_length_le (by simpa [one, steps] using hn)
  have done : ∀ n u, 4 ≤ n → (after 1 (one.take n)).pc u = .idle := by
    intro n u hn
    rw [big n hn]
    by_cases hu : u = 0
    · subst hu; decide +kernel
    · show (setf (setf (setf (setf (fun _ => Pc.idle) 0 _) 0 _) 0 _) 0 _) u = _
      rw [setf_ne _ _ hu, setf_ne _ _ hu, setf_ne _ _ hu, setf_ne _ _ hu]
  refine ⟨⟨.init, fun n u c h => ?_, fun n h => ?_⟩, ⟨fun u n h => ?_, fun u => ⟨0, fun m _ h => ?_⟩⟩, by decide +kernel, 0, by decide +kernel, by decide +kernel⟩
  · have hn : n < 4 := by
      have := (List.getElem?_eq_some_iff.1 h).1
      simpa [one, steps] using this
    match n, hn with
    | 0, _ => cases h; rfl
    | 1, _ => cases h; rfl
    | 2, _ => cases h; rfl
    | 3, _ => cases h; rfl
  · have hn : 4 ≤ n := by
      have := List.getElem?_eq_none_iff.1 h
      simpa [one, steps] using this
    show after 1 (one.take (n + 1)) = after 1 (one.take n)
    rw [big n hn, big (n + 1) (by omega)]
  · exact absurd (done (n + 4) u (by omega)) (h (n + 4) (by omega))
  · have : (u, Choice.spurious) ∈ one := List.mem_of_getElem? h
    simp [one, steps] at this

/-- Thread 0 has the only chunk, thread 1 asks for one. -/
def waiting : St := after 1 (one ++ [(1, .get), (1, .step)])

/-- Thread 1 has read the position. -/
def looking : St := { waiting with q := waiting.q.goto 1 (.deqSeq 0) }

theorem waiting_looks : waiting.next 1 .step = .to looking := rfl

theorem looking_waits : looking.next 1 .step = .to waiting := by
  have e : setf (setf (fun _ => (Mpmc.Pc.idle : Mpmc.Pc Nat)) 1 (.deqSeq 0)) 1 .idle = fun _ => .idle := by
    funext u
    by_cases hu : u = 1
    · subst hu; simp
    · rw [setf_ne _ _ hu, setf_ne _ _ hu]
  have h : looking.next 1 .step = .to { waiting with q := { waiting.q with
      pc := setf (setf (fun _ => (Mpmc.Pc.idle : Mpmc.Pc Nat)) 1 (.deqSeq 0)) 1 .idle } } := rfl
  rw [h, e]
  rfl

/-- The second alternative: thread 0 keeps the only chunk, thread 1 goes round for ever. -/
example : Execution 1 (fun n => if n % 2 = 0 then waiting else looking) (fun _ => some (1, .step)) ∧
    Fair (fun n => if n % 2 = 0 then waiting else looking) (fun _ => some (1, .step)) ∧ waiting.pc 1 ≠ .idle ∧
    ∀ n, (0, 0) ∈ (if n % 2 = 0 then waiting else looking).holds := by
  have idle : ∀ u, u ≠ 1 → waiting.pc u = .idle := by
    intro u hu
    by_cases h0 : u = 0
    · subst h0; decide +kernel
    · show (setf (setf (setf (setf (setf (setf (fun _ => Pc.idle) 0 _) 0 _) 0 _) 0 _) 1 _) 1 _) u = _
      rw [setf_ne _ _ hu, setf_ne _ _ hu, setf_ne _ _ h0, setf_ne _ _ h0, setf_ne _ _ h0, setf_ne _ _ h0]
  refine ⟨⟨?_, fun n u c h => ?_, fun n h => by cases h⟩, ⟨fun u n h => ?_, fun u => ⟨0, fun m _ h => by cases h⟩⟩,
    by decide +kernel, fun n => ?_⟩
  · exact run_reachable (l := one ++ [(1, .get), (1, .step)]) .init rfl
  · cases h
    by_cases hn : n % 2 = 0
    · rw [if_pos hn, if_neg (by omega)]; exact waiting_looks
    · rw [if_neg hn, if_pos (by omega)]; exact looking_waits
  · by_cases hu : u = 1
    · subst hu; exact ⟨n, Nat.le_refl _, rfl⟩
    · refine absurd ?_ (h (2 * n) (by omega))
      rw [if_pos (by omega)]
      exact idle u hu
  · split <;> (show (0, 0) ∈ [(0, 0)]; simp)

end Phosphor.RingConc
