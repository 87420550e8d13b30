import Verif.Proof.TraceLogMany
import Verif.Props.TraceLogEvents
/-
Several TraceLog objects (C57). The claim is false: the chunk a thread holds is one thread-local
pointer, whatever the log. It holds when every thread logs to, and registers with, one log only.
-/
namespace Phosphor.TLog
variable {ε : Type} {tid : Nat → Nat} {pol : Bool}

/-- The steps of log `k` in an execution of several logs. -/
def only (k : Nat) (l : List (Nat × Nat × Choice ε)) : List (Nat × Choice ε) :=
  (l.filter (·.1 = k)).map (·.2)

/-- In the execution `l` every thread `t` logs to, registers with and deregisters from log
`home t` only. It may start and stop, lock and read out any log. -/
def OneLog (home : Nat → Nat) (l : List (Nat × Nat × Choice ε)) : Prop :=
  ∀ k t c, (k, t, c) ∈ l → (c = .deregister ∨ (∃ e, c = .log e) ∨ ∃ n, c = .register n) → k = home t

/-- Log `k` with the tenants of the threads at home in it; the other tenants as if their threads
did not exist. -/
def Many.alone (m : Many ε) (home : Nat → Nat) (k : Nat) : St ε :=
  { m.logs k with
    tenant := fun u =>
      if home u = k then (m.tenant u).seen k (m.logs k).nextBuf
      else { lock := .unlocked, initialised := false, chunk := none } }

theorem Holder.after_same (h : Holder) (k : Nat) {old new : Tenant} (e : new = old) (e' : ∃ f, old = h.seen k f) :
    h.after k old new = h := by
  subst e
  obtain ⟨f, e'⟩ := e'
  subst e'
  simp [Holder.after, Holder.seen]

theorem Holder.after_seen (h : Holder) (k f f' : Nat) (hk : ∀ j b i, h.chunk = some (j, b, i) → j = k) (new : Tenant) :
    (h.after k (h.seen k f) new).seen k f' = new := by
  have h1 : ∀ f, (h.seen k f).chunk = h.chunk.map (·.2) := by
    intro f
    unfold Holder.seen
    cases hc : h.chunk with
    | none => rfl
    | some p =>
      obtain ⟨j, b, i⟩ := p
      have := hk j b i hc
      simp [this]
  have h2 : ((h.after k (h.seen k f) new).seen k f').chunk = new.chunk := by
    by_cases he : new.chunk = (h.seen k f).chunk
    · have : (h.after k (h.seen k f) new).chunk = h.chunk := by simp [Holder.after, he]
      rw [he, h1]
      show Option.map _ (h.after k (h.seen k f) new).chunk = _
      rw [this]
      have := h1 f'
      unfold Holder.seen at this
      exact this
    · have : (h.after k (h.seen k f) new).chunk = new.chunk.map fun p => (k, p.1, p.2) := by simp [Holder.after, he]
      show Option.map _ (h.after k (h.seen k f) new).chunk = _
      rw [this]
      cases new.chunk <;> simp
  cases new
  simp only [Holder.seen, Holder.after] at h2 ⊢
  rw [h2]

/-- Every chunk held belongs to the holder's log. -/
structure Apart (home : Nat → Nat) (m : Many ε) : Prop where
  chunk : ∀ u j b i, (m.tenant u).chunk = some (j, b, i) → j = home u
  fits : ∀ k, Fits (fun u => home u = k) (m.logs k)

variable {home : Nat → Nat} {m m' : Many ε}

theorem Apart.init : Apart home (Many.init : Many ε) :=
  ⟨(fun _ _ _ _ h => by cases h), fun _ => ⟨fun _ => trivial, (fun _ h => by cases h)⟩⟩

theorem Apart.own (h : Apart home m) {k t : Nat} {c : Choice ε} :
    m.next pol tid k t c = m.own pol tid k t c := by
  unfold Many.next
  by_cases hg : c.goesOn = true
  · rw [if_pos hg]
    split
    · rename_i hp hc
      have h1 := (h.fits k).pcs t
      rw [hp] at h1
      rw [if_pos ((h.chunk _ _ _ _ hc).trans h1)]
    · rename_i hp hc
      have h1 := (h.fits k).pcs t
      rw [hp] at h1
      rw [if_pos ((h.chunk _ _ _ _ hc).trans h1)]
    · rfl
  · rw [if_neg hg]

theorem Apart.next (h : Apart home m) {k t : Nat} {c : Choice ε} (hc : c.personal = true → home t = k) :
    match m.next pol tid k t c with
    | .blocked => (m.alone home k).next pol tid t c = .blocked
    | .ub => (m.alone home k).next pol tid t c = .ub
    | .to m' => Apart home m' ∧ (m.alone home k).next pol tid t c = .to (m'.alone home k) ∧
        ∀ j, j ≠ k → m'.logs j = m.logs j ∧ m'.alone home j = m.alone home j := by
  rw [h.own]
  have hv : m.view k = (m.alone home k).ten (fun u => (m.tenant u).seen k (m.logs k).nextBuf) := rfl
  have hfr := next_framed (pol := pol) (tid := tid) (s := m.alone home k) (H := fun u => home u = k) (t := t) (c := c)
    (g := fun u => (m.tenant u).seen k (m.logs k).nextBuf)
    (fun u hu => by simp [Many.alone, hu]) ((h.fits k).copy rfl rfl) hc
  rw [← hv] at hfr
  unfold Many.own
  revert hfr
  generalize (m.alone home k).next pol tid t c = x
  generalize (m.view k).next pol tid t c = y
  intro hfr
  cases hfr with
  | blocked => rfl
  | ub => rfl
  | next hf =>
    rename_i a g'
    have hother : ∀ u, home u ≠ k → (m.put k (a.ten g')).tenant u = m.tenant u := by
      intro u hu
      exact Holder.after_same _ _ (hf.other u hu) ⟨_, rfl⟩
    have hsame : ∀ u, home u = k → (m.put k (a.ten g')).tenant u =
        (m.tenant u).after k ((m.tenant u).seen k (m.logs k).nextBuf) (a.tenant u) := by
      intro u hu
      rw [← hf.same u hu]; rfl
    have hlogs : ∀ j, j ≠ k → (m.put k (a.ten g')).logs j = m.logs j := by
      intro j hj
      simp only [Many.put, setf, if_neg hj]
    have hlogk : (m.put k (a.ten g')).logs k = a.ten g' := by simp [Many.put, setf]
    refine ⟨⟨?_, ?_⟩, ?_, fun j hj => ⟨hlogs j hj, ?_⟩⟩
    · intro u j b i hcu
      by_cases hu : home u = k
      · rw [hsame u hu] at hcu
        simp only [Holder.after] at hcu
        split at hcu
        · exact h.chunk u j b i hcu
        · cases ht : (a.tenant u).chunk with
          | none => rw [ht] at hcu; cases hcu
          | some p => rw [ht] at hcu; cases hcu; exact hu.symm
      · rw [hother u hu] at hcu
        exact h.chunk u j b i hcu
    · intro j
      by_cases hj : j = k
      · subst hj; rw [hlogk]; exact hf.fits.copy rfl rfl
      · rw [hlogs j hj]; exact h.fits j
    · congr 1
      unfold Many.alone
      rw [hlogk]
      have : (fun u => if home u = k then ((m.put k (a.ten g')).tenant u).seen k (a.ten g').nextBuf
          else { lock := .unlocked, initialised := false, chunk := none }) = a.tenant := by
        funext u
        by_cases hu : home u = k
        · rw [if_pos hu, hsame u hu]
          exact Holder.after_seen _ _ _ _ (fun j b i e => (h.chunk u j b i e).trans hu) _
        · rw [if_neg hu, hf.other' u hu]
          simp [Many.alone, hu]
      rw [this]; rfl
    · unfold Many.alone
      rw [hlogs j hj]
      dsimp only
      congr 1
      funext u
      by_cases hu : home u = j
      · rw [if_pos hu, if_pos hu, hother u (by omega)]
      · rw [if_neg hu, if_neg hu]

theorem OneLog.head {k t : Nat} {c : Choice ε} {l : List (Nat × Nat × Choice ε)} (h : OneLog home ((k, t, c) :: l)) :
    c.personal = true → home t = k := by
  intro hp
  refine (h k t c (by simp) ?_).symm
  cases c <;> first | (cases hp; done) | (simp; done)

theorem OneLog.tail {p : Nat × Nat × Choice ε} {l : List (Nat × Nat × Choice ε)} (h : OneLog home (p :: l)) :
    OneLog home l := fun k t c hm => h k t c (List.mem_cons_of_mem _ hm)

theorem only_cons_self (k t : Nat) (c : Choice ε) (l : List (Nat × Nat × Choice ε)) :
    only k ((k, t, c) :: l) = (t, c) :: only k l := by simp [only]

theorem only_cons_ne {j k : Nat} (h : j ≠ k) (t : Nat) (c : Choice ε) (l : List (Nat × Nat × Choice ε)) :
    only j ((k, t, c) :: l) = only j l := by simp [only, Ne.symm h]

theorem Apart.run (h : Apart home m) {l : List (Nat × Nat × Choice ε)} (ho : OneLog home l)
    (hr : m.run pol tid l = .to m') :
    Apart home m' ∧ ∀ k, (m.alone home k).run pol tid (only k l) = .to (m'.alone home k) := by
  induction l generalizing m with
  | nil => cases hr; exact ⟨h, fun k => rfl⟩
  | cons p l ih =>
    obtain ⟨k, t, c⟩ := p
    have h1 := h.next (pol := pol) (tid := tid) ho.head
    simp only [Many.run] at hr
    revert h1 hr
    generalize m.next pol tid k t c = x
    intro hr h1
    cases x with
    | blocked => cases hr
    | ub => cases hr
    | to m1 =>
      obtain ⟨g1, g2, g3⟩ := h1
      obtain ⟨i1, i2⟩ := ih g1 ho.tail hr
      refine ⟨i1, fun j => ?_⟩
      by_cases hj : j = k
      · subst hj
        rw [only_cons_self]
        simp only [St.run, g2]
        exact i2 j
      · rw [only_cons_ne hj, ← (g3 j hj).2]
        exact i2 j

theorem alone_init (k : Nat) : (Many.init : Many ε).alone home k = St.init := by
  unfold Many.alone
  have : (fun u => if home u = k then (((Many.init : Many ε).tenant u).seen k 0)
      else { lock := .unlocked, initialised := false, chunk := none }) = (St.init : St ε).tenant := by
    funext u; by_cases h : home u = k <;> simp [h, Many.init, St.init, Holder.seen]
  show ({ (St.init : St ε) with tenant := _ } : St ε) = _
  rw [show ((Many.init : Many ε).logs k).nextBuf = 0 from rfl, this]

/-- C57 (partial: every thread logs to and registers with one log only). In any execution of any
number of logs every log ends in exactly the state that its own steps alone would have led to,
so all that is proved of a single log holds of it. Missing: threads that use several logs; for
those the claim is false, see `C57_refuted_write` and `C57_refuted_dangling`. -/
theorem C57_alone_partial {l : List (Nat × Nat × Choice ε)} (ho : OneLog home l)
    (hr : (Many.init : Many ε).run pol tid l = .to m) (k : Nat) :
    (St.init : St ε).run pol tid (only k l) = .to (m.alone home k) := by
  have := (Apart.init.run ho hr).2 k
  rwa [alone_init] at this

/-- C57 (partial, same condition): a step on log `k` leaves every other log untouched: its
buffers, its settings, and the tenants of the threads at home in it. -/
theorem C57_untouched_partial {l : List (Nat × Nat × Choice ε)} {k t : Nat} {c : Choice ε}
    (ho : OneLog home (l ++ [(k, t, c)])) (hr : (Many.init : Many ε).run pol tid l = .to m)
    (hs : m.next pol tid k t c = .to m') (j : Nat) (hj : j ≠ k) :
    m'.logs j = m.logs j ∧ m'.alone home j = m.alone home j := by
  have h := (Apart.init.run (fun k t c hm => ho k t c (List.mem_append_left _ hm)) hr).1
  have h1 := h.next (pol := pol) (tid := tid) (k := k) (t := t) (c := c)
    (OneLog.head (l := []) fun k t c hm => ho k t c (List.mem_append_right _ hm))
  rw [hs] at h1
  exact h1.2.2 j hj

/-- C57 (partial, same condition): a thread that holds a reference into a buffer is registered
with the log that made the buffer, so that `stop` of this log takes the reference away. -/
theorem C57_references_partial {l : List (Nat × Nat × Choice ε)} (ho : OneLog home l)
    (hr : (Many.init : Many ε).run pol tid l = .to m) {u j b i : Nat} (hc : (m.tenant u).chunk = some (j, b, i)) :
    j = home u ∧ u ∈ (m.logs j).registered := by
  have h := (Apart.init.run ho hr).1
  have hj := h.chunk u j b i hc
  refine ⟨hj, ?_⟩
  have hrun := run_reachable .init (C57_alone_partial ho hr j)
  refine (hrun.ctl0.reg u).2 (hrun.ctl0.chunkInit u ?_)
  simp [Many.alone, hj, Holder.seen, hc]

/-- C57 (partial, same condition): undefined behaviour is that of a single log. -/
theorem C57_undefined_partial {l : List (Nat × Nat × Choice ε)} {k t : Nat} {c : Choice ε}
    (ho : OneLog home (l ++ [(k, t, c)])) (hr : (Many.init : Many ε).run pol tid l = .to m)
    (hs : m.next pol tid k t c = .ub) :
    (m.alone home k).next pol tid t c = .ub ∧ Reachable pol tid (m.alone home k) := by
  have ho' : OneLog home l := fun k t c hm => ho k t c (List.mem_append_left _ hm)
  have h := (Apart.init.run ho' hr).1
  have h1 := h.next (pol := pol) (tid := tid) (k := k) (t := t) (c := c)
    (OneLog.head (l := []) fun k t c hm => ho k t c (List.mem_append_right _ hm))
  rw [hs] at h1
  exact ⟨h1, run_reachable .init (C57_alone_partial ho' hr k)⟩

/-- C57 (partial, same condition and that of `C45_safe_partial`): no step of any thread on any log
uses a null or destroyed buffer or a chunk of a buffer of another log. -/
theorem C57_safe_partial {l : List (Nat × Nat × Choice ε)} {k t : Nat} {c : Choice ε}
    (ho : OneLog home (l ++ [(k, t, c)])) (hr : (Many.init : Many ε).run true tid l = .to m) :
    m.next true tid k t c ≠ .ub := by
  intro hs
  have h := C57_undefined_partial ho hr hs
  exact C45_safe_partial h.2 c h.1

/-! ### Concrete executions -/

/-- The execution `l` of several logs is possible and ends in a state satisfying `p`. -/
def checks (l : List (Nat × Nat × Choice Nat)) (p : Many Nat → Bool) : Bool :=
  match (Many.init : Many Nat).run true (· + 100) l with
  | .to m => p m
  | _ => false

theorem checks_run {l : List (Nat × Nat × Choice Nat)} {p : Many Nat → Bool} (h : checks l p = true) :
    ∃ m, (Many.init : Many Nat).run true (· + 100) l = .to m ∧ p m = true := by
  unfold checks at h
  split at h
  · exact ⟨_, by assumption, h⟩
  · cases h

/-- The steps on log `k`. -/
def onLog (k : Nat) (l : List (Nat × Choice Nat)) : List (Nat × Nat × Choice Nat) := l.map fun p => (k, p)

/-- C57 is false: thread 1, registered with log 0, logs event 5 to log 0 and then event 7 to log 1.
The call on log 1 writes event 7 into the buffer of log 0, and log 1 has no chunk in use. -/
theorem C57_refuted_write : ∃ m : Many Nat,
    (Many.init : Many Nat).run true (· + 100) (onLog 0 (registers 1 ['a'] ++ starts fixed1) ++ onLog 1 (starts fixed1) ++
      onLog 0 ((1, .log 5) :: steps 1 11) ++ onLog 1 ((1, .log 7) :: steps 1 6)) = .to m ∧
    ((m.logs 0).stored 0 1 == [5, 7] && ((m.logs 0).heap 0).iterate 10 == some (.ok [(5, 101), (7, 101)]) &&
      ((m.logs 1).heap 0).iterate 10 == some (.ok []) && (m.logs 0).pc 1 == .idle && (m.logs 1).pc 1 == .idle) = true :=
  checks_run (by decide +kernel)

/-- C57 is false: thread 1, registered with log 0, logs to log 1 and keeps a chunk of log 1 that
stopping log 1 does not take away. When the buffer of log 1 has been retrieved and destroyed the
next event logged to log 0 follows a dangling pointer. -/
theorem C57_refuted_dangling : ∃ m : Many Nat,
    (Many.init : Many Nat).run true (· + 100) (onLog 0 (registers 1 ['a']) ++ onLog 1 (starts fixed1) ++
      onLog 1 ((1, .log 7) :: steps 1 11) ++ onLog 1 (locked ((0, .stop false) :: steps 0 1 ++ [(0, .ret), (0, .getBuffer), (0, .free 0)])) ++
      onLog 0 (starts fixed1) ++ onLog 0 ((1, .log 5) :: steps 1 3)) = .to m ∧
    ((m.tenant 1).chunk == some (1, 0, 0) && (m.logs 1).status 0 == .freed && (m.logs 0).enabled &&
      (match m.next true (· + 100) 0 1 .step with | .ub => true | _ => false)) = true :=
  checks_run (by decide +kernel)

/-- Two logs, each with a thread of its own that logs to it: the theorems above apply. -/
example : ∃ (l : List (Nat × Nat × Choice Nat)) (m : Many Nat), OneLog (fun t => t - 1) l ∧
    (Many.init : Many Nat).run true (· + 100) l = .to m ∧
    ((m.logs 0).stored 0 1 == [5] && (m.logs 1).stored 0 2 == [7] && (m.tenant 2).chunk == some (1, 0, 0)) = true := by
  obtain ⟨m, h1, h2⟩ := checks_run (p := fun m => (m.logs 0).stored 0 1 == [5] && (m.logs 1).stored 0 2 == [7] &&
      (m.tenant 2).chunk == some (1, 0, 0))
    (l := onLog 0 (registers 1 ['a'] ++ starts fixed1) ++ onLog 1 (registers 2 ['b'] ++ starts fixed1) ++
      onLog 0 ((1, .log 5) :: steps 1 11) ++ onLog 1 ((2, .log 7) :: steps 2 11)) (by decide +kernel)
  refine ⟨_, m, ?_, h1, h2⟩
  intro k t c hm hp
  show k = t - 1
  simp only [onLog, registers, starts, locked, steps, List.mem_append, List.mem_map, List.mem_cons,
    List.mem_replicate] at hm
  rcases hp with rfl | ⟨e, rfl⟩ | ⟨n, rfl⟩ <;> simp at hm <;> omega

end Phosphor.TLog
