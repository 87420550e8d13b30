import Verif.Proof.MpmcCur
/-
Property C88, for the return queue: with its memory orders it has every execution the interleaving
model has, and a thread running alone finishes its call.
-/
namespace Phosphor.Mpmc

/-- `j` steps, all of thread `t`. -/
inductive Alone {α : Type} (n t : Nat) (s : St α) : Nat → St α → Prop
  | refl : Alone n t s 0 s
  | step {j : Nat} {a b : St α} : Alone n t s j a → Step n a b → (∀ u, u ≠ t → b.pc u = a.pc u) →
      Alone n t s (j + 1) b

variable {α : Type} {n : Nat} {s s' : St α} {t : Nat}

theorem Alone.trans {a b c : St α} {i j : Nat} (h : Alone n t a i b) (h' : Alone n t b j c) :
    Alone n t a (i + j) c := by
  induction h' with
  | refl => exact h
  | step _ hs ho ih => exact .step ih hs ho

theorem Alone.one {a b : St α} (hs : Step n a b) (ho : ∀ u, u ≠ t → b.pc u = a.pc u) : Alone n t a 1 b :=
  .step .refl hs ho

theorem Alone.inv {k j : Nat} (hk : 1 ≤ k) (h : Inv (2 ^ k) s) (ha : Alone (2 ^ k) t s j s') : Inv (2 ^ k) s' := by
  induction ha with
  | refl => exact h
  | step _ hs _ ih => exact inv_step hk ih hs

theorem alone_write {x : α} {pos : Nat} (hp : s.pc t = .enqWrite x pos) :
    ∃ s', Alone n t s 2 s' ∧ s'.pc t = .idle ∧ s'.log = s.log ∧ s'.got = s.got ∧ s'.pub pos = true := by
  refine ⟨_, .step (.step .refl (.enqWrite hp) fun u hu => goto_other _ _ hu)
    (.enqPub (x := x) (pos := pos) (goto_self _ _ _)) fun u hu => goto_other _ _ hu, goto_self _ _ _, rfl, rfl, setf_self _ _ _⟩

theorem alone_read {pos : Nat} (hp : s.pc t = .deqRead pos) :
    ∃ s', Alone n t s 2 s' ∧ s'.pc t = .idle ∧ s'.log = s.log ∧ s'.got = s.got ++ [(pos, s.data (idx n pos))] := by
  refine ⟨_, .step (.step .refl (.deqRead hp) fun u hu => goto_other _ _ hu)
    (.deqPub (goto_self _ _ _)) fun u hu => goto_other _ _ hu, goto_self _ _ _, rfl, rfl⟩

/-- With the current position: at most four more steps, and a new item if there is room. -/
theorem alone_enqSeq {k : Nat} (h : Inv (2 ^ k) s) {x : α} (hp : s.pc t = .enqSeq x s.enqPos) :
    ∃ j s', j ≤ 4 ∧ Alone (2 ^ k) t s j s' ∧ s'.pc t = .idle ∧
      ((2 ^ k ≤ s.enqPos → s.rel (s.enqPos - 2 ^ k) = true) → s'.log = s.log ++ [x]) := by
  have h0 : 1 ≤ 2 ^ k := Nat.one_le_two_pow
  have hs : Step (2 ^ k) s _ := .enqSeq hp
  rw [idx_eq] at hs
  rcases enqNext_fresh h h0 x with e | e
  · rw [e] at hs
    have h1 : Alone (2 ^ k) t s 1 _ := .one hs fun u hu => goto_other _ _ hu
    have h2 := h1.step (.enqCasOk (goto_self _ _ _) rfl) fun u hu => goto_other _ _ hu
    obtain ⟨s', h3, h4, h5, -⟩ := alone_write (n := 2 ^ k) (s := { (s.goto t (.enqCas x s.enqPos)).goto t (.enqWrite x s.enqPos) with
      enqPos := s.enqPos + 1, log := s.log ++ [x] }) (t := t) (x := x) (pos := s.enqPos) (goto_self _ _ _)
    exact ⟨4, s', Nat.le_refl _, h2.trans h3, h4, fun _ => h5⟩
  · refine ⟨1, _, by omega, .one hs fun u hu => goto_other _ _ hu, by rw [goto_self]; exact e, fun hr => ?_⟩
    have := h.enq_ready' hr
    rw [this] at e
    simp [enqNext] at e

theorem alone_deqSeq {k : Nat} (h : Inv (2 ^ k) s) (hp : s.pc t = .deqSeq s.deqPos) :
    ∃ j s', j ≤ 4 ∧ Alone (2 ^ k) t s j s' ∧ s'.pc t = .idle ∧
      (s.pub s.deqPos = true → s'.got = s.got ++ [(s.deqPos, s.log[s.deqPos]?)]) := by
  have h0 : 1 ≤ 2 ^ k := Nat.one_le_two_pow
  have hs : Step (2 ^ k) s _ := .deqSeq hp
  rw [idx_eq] at hs
  have hrel : s.rel s.deqPos = false := by
    cases hr : s.rel s.deqPos with
    | false => rfl
    | true => have := h.relLt _ hr; omega
  rcases deqNext_fresh h h0 with e | e
  · rw [e] at hs
    have h1 : Alone (2 ^ k) t s 1 _ := .one hs fun u hu => goto_other _ _ hu
    have h2 := h1.step (.deqCasOk (goto_self _ _ _) rfl) fun u hu => goto_other _ _ hu
    obtain ⟨s', h3, h4, -, h5⟩ := alone_read (n := 2 ^ k) (s := { (s.goto t (.deqCas s.deqPos)).goto t (.deqRead s.deqPos) with
      deqPos := s.deqPos + 1 }) (t := t) (pos := s.deqPos) (goto_self _ _ _)
    refine ⟨4, s', Nat.le_refl _, h2.trans h3, h4, fun hpub => ?_⟩
    rw [h5, ← (h.full _ hpub hrel).2, idx_eq]
    rfl
  · refine ⟨1, _, by omega, .one hs fun u hu => goto_other _ _ hu, by rw [goto_self]; exact e, fun hpub => ?_⟩
    have := (h.full _ hpub hrel).1
    rw [this] at e
    simp [deqNext] at e

/-- The item of an `enqueue` that has not claimed a position yet. -/
def Pc.item : Pc α → Option α
  | .enqSeq x _ | .enqReload x | .enqCas x _ => some x
  | _ => none

/-- A `dequeue` that has not claimed a position yet. -/
def Pc.asks : Pc α → Bool
  | .deqSeq _ | .deqReload | .deqCas _ => true
  | _ => false

/-- A call is finished alone in six steps. -/
theorem alone {k : Nat} (hk : 1 ≤ k) (h : Inv (2 ^ k) s) :
    ∃ j s', j ≤ 6 ∧ Alone (2 ^ k) t s j s' ∧ s'.pc t = .idle ∧
      (∀ x, (s.pc t).item = some x → (2 ^ k ≤ s.enqPos → s.rel (s.enqPos - 2 ^ k) = true) →
        s'.log = s.log ++ [x]) ∧
      ((s.pc t).asks = true → s.pub s.deqPos = true → s'.got = s.got ++ [(s.deqPos, s.log[s.deqPos]?)]) := by
  have re : ∀ {s : St α} {x}, Inv (2 ^ k) s → s.pc t = .enqReload x →
      ∃ j s', j ≤ 5 ∧ Alone (2 ^ k) t s j s' ∧ s'.pc t = .idle ∧
        ((2 ^ k ≤ s.enqPos → s.rel (s.enqPos - 2 ^ k) = true) → s'.log = s.log ++ [x]) := by
    intro s x h hp
    have hs : Step (2 ^ k) s _ := .enqReload hp
    obtain ⟨j, s', h1, h2, h3, h4⟩ := alone_enqSeq (t := t) (inv_step hk h hs) (x := x) (goto_self _ _ _)
    exact ⟨1 + j, s', by omega, (Alone.one hs fun u hu => goto_other _ _ hu).trans h2, h3, h4⟩
  have rd : ∀ {s : St α}, Inv (2 ^ k) s → s.pc t = .deqReload →
      ∃ j s', j ≤ 5 ∧ Alone (2 ^ k) t s j s' ∧ s'.pc t = .idle ∧
        (s.pub s.deqPos = true → s'.got = s.got ++ [(s.deqPos, s.log[s.deqPos]?)]) := by
    intro s h hp
    have hs : Step (2 ^ k) s _ := .deqReload hp
    obtain ⟨j, s', h1, h2, h3, h4⟩ := alone_deqSeq (t := t) (inv_step hk h hs) (goto_self _ _ _)
    exact ⟨1 + j, s', by omega, (Alone.one hs fun u hu => goto_other _ _ hu).trans h2, h3, h4⟩
  have ce : ∀ {s : St α} {x pos}, Inv (2 ^ k) s → s.pc t = .enqCas x pos →
      ∃ j s', j ≤ 5 ∧ Alone (2 ^ k) t s j s' ∧ s'.pc t = .idle ∧
        ((2 ^ k ≤ s.enqPos → s.rel (s.enqPos - 2 ^ k) = true) → s'.log = s.log ++ [x]) := by
    intro s x pos h hp
    have hs : Step (2 ^ k) s _ := .enqCasFail hp
    obtain ⟨j, s', h1, h2, h3, h4⟩ := alone_enqSeq (t := t) (inv_step hk h hs) (x := x) (goto_self _ _ _)
    exact ⟨1 + j, s', by omega, (Alone.one hs fun u hu => goto_other _ _ hu).trans h2, h3, h4⟩
  have cd : ∀ {s : St α} {pos}, Inv (2 ^ k) s → s.pc t = .deqCas pos →
      ∃ j s', j ≤ 5 ∧ Alone (2 ^ k) t s j s' ∧ s'.pc t = .idle ∧
        (s.pub s.deqPos = true → s'.got = s.got ++ [(s.deqPos, s.log[s.deqPos]?)]) := by
    intro s pos h hp
    have hs : Step (2 ^ k) s _ := .deqCasFail hp
    obtain ⟨j, s', h1, h2, h3, h4⟩ := alone_deqSeq (t := t) (inv_step hk h hs) (goto_self _ _ _)
    exact ⟨1 + j, s', by omega, (Alone.one hs fun u hu => goto_other _ _ hu).trans h2, h3, h4⟩
  cases hp : s.pc t with
  | idle => exact ⟨0, s, by omega, .refl, hp, fun x e => (by cases e), fun e => (by cases e)⟩
  | enqReload x =>
    obtain ⟨j, s', h1, h2, h3, h4⟩ := re h hp
    exact ⟨j, s', by omega, h2, h3, fun y e => (by cases e; exact h4), fun e => (by cases e)⟩
  | enqCas x pos =>
    obtain ⟨j, s', h1, h2, h3, h4⟩ := ce h hp
    exact ⟨j, s', by omega, h2, h3, fun y e => (by cases e; exact h4), fun e => (by cases e)⟩
  | enqSeq x pos =>
    have hpcs := h.pcs t
    rw [hp] at hpcs
    have hs : Step (2 ^ k) s _ := .enqSeq hp
    have ha : Alone (2 ^ k) t s 1 _ := .one hs fun u hu => goto_other _ _ hu
    have hi := inv_step hk h hs
    rcases enqNext_cases x pos (s.seq (idx (2 ^ k) pos)) with e | e | e
    · obtain ⟨j, s', h1, h2, h3, h4⟩ := ce hi (by rw [goto_self]; exact e)
      exact ⟨1 + j, s', by omega, ha.trans h2, h3, fun y e => (by cases e; exact h4), fun e => (by cases e)⟩
    · refine ⟨1, _, by omega, ha, by rw [goto_self]; exact e, fun y ey hr => ?_, fun e => (by cases e)⟩
      cases ey
      exfalso
      have hlt : s.seq (pos % 2 ^ k) < pos := by
        rw [idx_eq] at e
        unfold enqNext at e
        dsimp only at e
        split at e
        · cases e
        · split at e
          · omega
          · cases e
      obtain ⟨h1, h2, h3⟩ := h.enq_fail hpcs hlt
      rw [h1] at h2 h3
      rw [hr h2] at h3
      cases h3
    · obtain ⟨j, s', h1, h2, h3, h4⟩ := re hi (by rw [goto_self]; exact e)
      exact ⟨1 + j, s', by omega, ha.trans h2, h3, fun y e => (by cases e; exact h4), fun e => (by cases e)⟩
  | deqReload =>
    obtain ⟨j, s', h1, h2, h3, h4⟩ := rd h hp
    exact ⟨j, s', by omega, h2, h3, fun y e => (by cases e), fun _ => h4⟩
  | deqCas pos =>
    obtain ⟨j, s', h1, h2, h3, h4⟩ := cd h hp
    exact ⟨j, s', by omega, h2, h3, fun y e => (by cases e), fun _ => h4⟩
  | deqSeq pos =>
    have hpcs := h.pcs t
    rw [hp] at hpcs
    have hs : Step (2 ^ k) s _ := .deqSeq hp
    have ha : Alone (2 ^ k) t s 1 _ := .one hs fun u hu => goto_other _ _ hu
    have hi := inv_step hk h hs
    rcases deqNext_cases pos (s.seq (idx (2 ^ k) pos)) with e | e | e
    · obtain ⟨j, s', h1, h2, h3, h4⟩ := cd hi (by rw [goto_self]; exact e)
      exact ⟨1 + j, s', by omega, ha.trans h2, h3, fun y e => (by cases e), fun _ => h4⟩
    · refine ⟨1, _, by omega, ha, by rw [goto_self]; exact e, fun y e => (by cases e), fun _ hpub => ?_⟩
      exfalso
      have hlt : s.seq (pos % 2 ^ k) < pos + 1 := by
        rw [idx_eq] at e
        unfold deqNext at e
        dsimp only at e
        split at e
        · cases e
        · split at e
          · omega
          · cases e
      obtain ⟨h1, h2⟩ := h.deq_fail hpcs hlt
      rw [h1, hpub] at h2
      cases h2
    · obtain ⟨j, s', h1, h2, h3, h4⟩ := rd hi (by rw [goto_self]; exact e)
      exact ⟨1 + j, s', by omega, ha.trans h2, h3, fun y e => (by cases e), fun _ => h4⟩
  | enqWrite x pos =>
    obtain ⟨s', h1, h2, -⟩ := alone_write (n := 2 ^ k) hp
    exact ⟨2, s', by omega, h1, h2, fun y e => (by cases e), fun e => (by cases e)⟩
  | enqPub x pos =>
    exact ⟨1, _, by omega, .one (.enqPub hp) fun u hu => goto_other _ _ hu, goto_self _ _ _,
      fun y e => (by cases e), fun e => (by cases e)⟩
  | deqRead pos =>
    obtain ⟨s', h1, h2, -⟩ := alone_read (n := 2 ^ k) hp
    exact ⟨2, s', by omega, h1, h2, fun y e => (by cases e), fun e => (by cases e)⟩
  | deqPub pos v =>
    exact ⟨1, _, by omega, .one (.deqPub hp) fun u hu => goto_other _ _ hu, goto_self _ _ _,
      fun y e => (by cases e), fun e => (by cases e)⟩

namespace W
open Phosphor.Weak

/-- C88: every state an interleaving of queue operations reaches is also reached with the memory
orders of the source: they exclude no execution. -/
theorem C88_queue {s : Mpmc.St α} (h : Mpmc.Reachable n s) : ∃ w : St α, Reachable n w ∧
    w.pc = s.pc ∧ w.data = s.data ∧ w.log = s.log ∧ w.pub = s.pub ∧ w.rel = s.rel ∧ w.got = s.got := by
  suffices hx : ∃ w : St α, Reachable n w ∧ Now w s by
    obtain ⟨w, h1, h2⟩ := hx
    exact ⟨w, h1, h2.pc, h2.data, h2.log, h2.pub, h2.rel, h2.got⟩
  induction h with
  | init => exact ⟨_, .init, Now.init⟩
  | step _ hs ih =>
    obtain ⟨w, h1, h2⟩ := ih
    obtain ⟨w', h3, h4⟩ := h2.step h1.wf hs
    exact ⟨w', .step h1 h3, h4⟩

/-- `j` steps, all of thread `t`. -/
inductive Alone (n t : Nat) (w : St α) : Nat → St α → Prop
  | refl : Alone n t w 0 w
  | step {j : Nat} {a b : St α} : Alone n t w j a → Step n a b → (∀ u, u ≠ t → b.pc u = a.pc u) →
      Alone n t w (j + 1) b

theorem Alone.lift {w : St α} {s s' : Mpmc.St α} {j : Nat} (h : Reachable n w) (hn : Now w s)
    (ha : Mpmc.Alone n t s j s') : ∃ w', Alone n t w j w' ∧ Reachable n w' ∧ Now w' s' := by
  induction ha with
  | refl => exact ⟨w, .refl, h, hn⟩
  | step _ hs ho ih =>
    obtain ⟨w1, h1, h2, h3⟩ := ih
    obtain ⟨w2, h4, h5⟩ := h3.step h2.wf hs
    exact ⟨w2, h1.step h4 fun u hu => by rw [h5.pc, h3.pc]; exact ho u hu, h2.step h4, h5⟩

/-- C88: whatever stale values a thread has seen, and wherever the other threads have stopped, its
call on the queue can be finished by itself in at most six steps. If it is an `enqueue` that has not
claimed a position and there is room, it can enqueue its item; if it is such a `dequeue` and the next
item has been published, it can take that. -/
theorem C88_alone {k : Nat} (hk : 1 ≤ k) {w : St α} (h : Reachable (2 ^ k) w) (t : Nat) :
    ∃ j w', j ≤ 6 ∧ Alone (2 ^ k) t w j w' ∧ w'.pc t = .idle ∧
      (∀ x, (w.pc t).item = some x → (2 ^ k ≤ w.log.length → w.rel (w.log.length - 2 ^ k) = true) →
        w'.log = w.log ++ [x]) ∧
      (∀ d, w.mem.Cur .deq d → (w.pc t).asks = true → w.pub d = true →
        w'.got = w.got ++ [(d, w.log[d]?)]) := by
  obtain ⟨s, top, hr⟩ := rel_reachable hk h
  have hn : Now w s := by
    refine ⟨?_, ?_, fun i => ?_, hr.data, hr.pc, hr.log, hr.pub, hr.rel, hr.got⟩
    · cases hx : w.mem.hist .enq s.enqPos with
      | none => exact absurd hx (hr.enqAll _ (Nat.le_refl _))
      | some m =>
        refine ⟨_, m, hx, (hr.enq _ _ hx).1, fun ts' ht => ?_⟩
        cases hy : w.mem.hist .enq ts' with
        | none => rfl
        | some m' => have := (hr.enq _ _ hy).2; omega
    · cases hx : w.mem.hist .deq s.deqPos with
      | none => exact absurd hx (hr.deqAll _ (Nat.le_refl _))
      | some m =>
        refine ⟨_, m, hx, (hr.deq _ _ hx).1, fun ts' ht => ?_⟩
        cases hy : w.mem.hist .deq ts' with
        | none => rfl
        | some m' => have := (hr.deq _ _ hy).2; omega
    · obtain ⟨m, h1, h2⟩ := hr.topMsg i
      refine ⟨_, m, h1, h2, fun ts' ht => ?_⟩
      cases hy : w.mem.hist (.seq i) ts' with
      | none => rfl
      | some m' => have := (hr.seqLe _ _ _ hy).2; omega
  obtain ⟨j, s', h1, h2, h3, h4, h5⟩ := alone (t := t) hk hr.inv
  obtain ⟨w', h6, -, h8⟩ := Alone.lift h hn h2
  refine ⟨j, w', h1, h6, by rw [h8.pc]; exact h3, fun x hx hroom => ?_, fun d hd ha hpub => ?_⟩
  · rw [h8.log, hr.log]
    refine h4 x (by rw [← hr.pc]; exact hx) ?_
    rw [← hr.inv.len, ← hr.log, ← hr.rel]
    exact hroom
  · have : d = s.deqPos := hd.unique hn.deq
    subst this
    rw [h8.got, hr.got, hr.log]
    exact h5 (by rw [← hr.pc]; exact ha) (by rw [← hr.pub]; exact hpub)

/-- Thread 0 has enqueued an item and thread 1 is in `dequeue`, at the position of that item. -/
example : ∃ w : St Nat, Reachable (2 ^ 1) w ∧ (w.pc 1).asks = true ∧ w.mem.Cur .deq 0 ∧ w.pub 0 = true ∧
    w.log = [7] := by
  have h := Mpmc.Reachable.init (α := Nat) (n := 2 ^ 1)
  have h := h.step (.callEnq (t := 0) (x := 7) rfl)
  have h := h.step (.enqSeq (t := 0) rfl)
  have h := h.step (.enqCasOk (t := 0) rfl rfl)
  have h := h.step (.enqWrite (t := 0) rfl)
  have h := h.step (.enqPub (t := 0) rfl)
  have h := h.step (.callDeq (t := 1) rfl)
  have key : ∀ {s : Mpmc.St Nat}, Mpmc.Reachable (2 ^ 1) s → ∃ w : St Nat, Reachable (2 ^ 1) w ∧ Now w s := by
    intro s h
    induction h with
    | init => exact ⟨_, .init, Now.init⟩
    | step _ hs ih =>
      obtain ⟨w, h1, h2⟩ := ih
      obtain ⟨w', h3, h4⟩ := h2.step h1.wf hs
      exact ⟨w', .step h1 h3, h4⟩
  obtain ⟨w, h1, h2⟩ := key h
  exact ⟨w, h1, by rw [h2.pc]; rfl, h2.deq, by rw [h2.pub]; rfl, by rw [h2.log]; rfl⟩

end W
end Phosphor.Mpmc
