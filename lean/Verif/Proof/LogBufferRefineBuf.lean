import Verif.Spec.LogBufferRefine
/-
The accesses of the functions of the built-in buffers, seen as functions of Model/TraceBuffer.
-/
namespace Phosphor.LogBuf
open TLog

/-- What an access of thread `t` inside a function of the buffer is to somebody for whom the functions
are single steps. -/
inductive Turn (ε : Type) (b : Buf) (t : Nat) (b' : Buf) : Prop
  /-- nothing -/
  | skip (h : b'.hand t = b.hand t) (w : b'.waits t = b.waits t) (B : ∀ B : Buffer ε, BufSeen b B → BufSeen b' B)
  /-- `getChunk` of a ring begins to wait -/
  | wait (f : b.phase t = .getting) (h : b.hand t = none) (w : b.waits t = false) (h' : b'.hand t = none) (w' : b'.waits t = true)
      (B : ∀ (k : Nat) (B : Buffer ε), BufSeen b B → B.mode = .ring ∧ ∃ B', B.ringClaim k = (B', none) ∧ BufSeen b' B')
  /-- a chunk is issued for the first time -/
  | issue (i : Nat) (f : b.phase t = .getting) (h : b.hand t = none) (w : b.waits t = false) (h' : b'.hand t = some i)
      (B : ∀ (k : Nat) (B : Buffer ε), BufSeen b B → ∃ B', BufSeen b' B' ∧
        (B.mode = .ring ∧ B.ringClaim k = (B', some i) ∨ B.mode = .fixed ∧ B.getChunkFixed k = (B', .chunk i)))
  /-- a chunk is taken from the queue -/
  | take (i : Nat) (f : b.phase t = .getting) (h : b.hand t = none) (w : b.waits t = true) (h' : b'.hand t = some i)
      (B : ∀ (k : Nat) (B : Buffer ε), BufSeen b B → B.mode = .ring ∧ ∃ B', B.ringTake k = some (B', i) ∧ BufSeen b' B')
  /-- a chunk is put into the queue -/
  | put (i : Nat) (f : b.phase t = .returning) (h : b.hand t = some i) (h' : b'.hand t = none)
      (B : ∀ B : Buffer ε, BufSeen b B → BufSeen b' (B.returnChunk i))

/-- The other threads have the same chunks and wait as before. -/
def Others (b : Buf) (t : Nat) (b' : Buf) : Prop := ∀ u, u ≠ t → b'.hand u = b.hand u ∧ b'.waits u = b.waits u

def TurnOk (ε : Type) (b : Buf) (t : Nat) : Ev Buf → Prop
  | .blocked | .ub => True
  | .inside b' => Others b t b' ∧ Turn ε b t b'
  | .got b' none => Others b t b' ∧ b.hand t = none ∧ b.waits t = false ∧
      ∀ (k : Nat) (B : Buffer ε), BufSeen b B → B.mode = .fixed ∧ ∃ B', B.getChunkFixed k = (B', .null) ∧ BufSeen b' B'
  | .got b' (some i) => Others b t b' ∧ b.hand t = some i ∧ ∀ B : Buffer ε, BufSeen b B → BufSeen b' B
  | .gave b' => Others b t b' ∧ b.hand t = none ∧ ∀ B : Buffer ε, BufSeen b B → BufSeen b' B

variable {ε : Type} {t : Nat}

theorem fixed_others {s s' : FSt} {p : FPc} (h : s'.pc = setf s.pc t p) : Others (.fixed s) t (.fixed s') := by
  intro u hu
  simp [Buf.hand, Buf.waits, h, setf_ne _ _ hu]

theorem fixed_turn (s : FSt) : TurnOk ε (.fixed s) t (Buf.fixedEv (s.step t)) := by
  unfold FSt.step
  cases hp : s.pc t with
  | idle => trivial
  | count =>
    dsimp only
    split <;> rename_i hc
    · refine ⟨fixed_others rfl, by simp [Buf.hand, hp, FPc.hand], rfl, ?_⟩
      rintro k B ⟨h1, h2, h3⟩
      refine ⟨h1, { B with counter := B.counter + 1 }, ?_, h1, by simp [h2], h3⟩
      have : B.counter ≥ ({ B with counter := B.counter + 1 } : Buffer ε).size := by
        show B.counter ≥ B.size; rw [h2, h3]; exact hc
      simp [Buffer.getChunkFixed, this]
    · refine ⟨fixed_others rfl, .issue s.issued (by simp [Buf.phase, hp, fPhase]) (by simp [Buf.hand, hp, FPc.hand]) rfl (by simp [Buf.hand, FPc.hand]) ?_⟩
      rintro k B ⟨h1, h2, h3⟩
      have : ¬ B.counter ≥ ({ B with counter := B.counter + 1 } : Buffer ε).size := by
        show ¬ B.counter ≥ B.size; rw [h2, h3]; exact hc
      have e : ∃ B', B.getChunkFixed k = (B', .chunk B.counter) ∧ B'.mode = B.mode ∧ B'.counter = B.counter + 1 ∧ B'.size = B.size := by
        simp only [Buffer.getChunkFixed, if_neg this, Prod.mk.injEq, and_true, exists_eq_left']
        simp [Buffer.size, Buffer.resetAt]
      obtain ⟨B', e1, e2, e3, e4⟩ := e
      exact ⟨B', ⟨e2.trans h1, by rw [e3, h2], by rw [e4, h3]⟩, .inr ⟨h1, by rw [e1, h2]⟩⟩
  | reset i =>
    dsimp only
    split
    · exact ⟨fixed_others rfl, .skip (by simp [Buf.hand, hp, FPc.hand]) rfl (fun _ h => h)⟩
    · trivial
  | lend i => exact ⟨fixed_others rfl, by simp [Buf.hand, hp, FPc.hand], fun _ h => h⟩
  | unlend => exact ⟨fixed_others rfl, by simp [Buf.hand, hp, FPc.hand], fun _ h => h⟩

theorem ring_others {s s' : RingConc.St} {l : List Nat} (hi : Mpmc.Inv (RingConc.capacity s.size) s.q) (h1 : ∀ u, u ≠ t → s'.pc u = s.pc u)
    (h2 : ∀ u, u ≠ t → s'.q.pc u = s.q.pc u) (h3 : s'.q.log = s.q.log ++ l) : Others (.ring s) t (.ring s') := by
  intro u hu
  constructor
  · show s'.hand u = s.hand u
    rw [RingConc.St.hand, RingConc.St.hand, h1 u hu, h2 u hu, h3, RingConc.handOf_log hi]
  · show s'.waits u = s.waits u
    rw [RingConc.St.waits, RingConc.St.waits, h1 u hu, h2 u hu]

/-- An access to the queue that does not claim a position. -/
theorem ring_skip {s s' : RingConc.St} (hi : Mpmc.Inv (RingConc.capacity s.size) s.q) (h1 : ∀ u, u ≠ t → s'.pc u = s.pc u)
    (h2 : ∀ u, u ≠ t → s'.q.pc u = s.q.pc u) (h3 : s'.q.log = s.q.log) (h4 : s'.q.deqPos = s.q.deqPos)
    (h5 : s'.counter = s.counter) (h6 : s'.size = s.size)
    (h7 : RingConc.handOf s.q.log (s'.pc t) (s'.q.pc t) = RingConc.handOf s.q.log (s.pc t) (s.q.pc t))
    (h8 : RingConc.waitsOf (s'.pc t) (s'.q.pc t) = RingConc.waitsOf (s.pc t) (s.q.pc t)) :
    Others (.ring s) t (.ring s') ∧ Turn ε (.ring s) t (.ring s') := by
  refine ⟨ring_others (l := []) hi h1 h2 (by simp [h3]), .skip ?_ h8 ?_⟩
  · show RingConc.handOf s'.q.log _ _ = _; rw [h3]; exact h7
  · rintro B ⟨a, b, c, d⟩
    exact ⟨a, by rw [b, h5], by rw [c, h6], by rw [d, Mpmc.St.items, Mpmc.St.items, h3, h4]⟩

theorem ring_turn {s : RingConc.St} {A : RingSys Unit} (h : RingConc.Rel s A)
    (hi : Mpmc.Inv (RingConc.capacity s.size) s.q) (sp : Bool) :
    TurnOk ε (.ring s) t (Buf.ringEv (s.pc t) (s.access t sp)) := by
  have hself : ∀ p, (s.q.goto t p).pc t = p := fun p => Mpmc.goto_self s.q t p
  have hother : ∀ p u, u ≠ t → (s.q.goto t p).pc u = s.q.pc u := fun p u hu => Mpmc.goto_other _ _ hu
  have hoth : ∀ u, u ≠ t → (RingConc.qnext (RingConc.capacity s.size) s.q t sp).pc u = s.q.pc u := fun u hu =>
    RingConc.qnext_other _ _ _ hu
  have hsy := h.sync t
  unfold RingConc.St.access
  cases hp : s.pc t with
  | idle => trivial
  | unlend =>
    rw [hp] at hsy
    refine ⟨ring_others (l := []) hi (fun u hu => RingConc.goto_pc_ne s _ hu) (fun _ _ => rfl) (by simp [RingConc.St.goto]), ?_,
      fun B hB => hB⟩
    show s.hand t = none
    rw [RingConc.St.hand_eq hp hsy]; rfl
  | lend i =>
    rw [hp] at hsy
    refine ⟨ring_others (l := []) hi (fun u hu => RingConc.goto_pc_ne s _ hu) (fun _ _ => rfl) (by simp [RingConc.St.goto]), ?_,
      fun B hB => hB⟩
    show s.hand t = some i
    rw [RingConc.St.hand_eq hp hsy]; rfl
  | reset i =>
    rw [hp] at hsy
    cases i with
    | none => trivial
    | some i =>
      dsimp only
      split
      · refine ring_skip hi (fun u hu => RingConc.goto_pc_ne s _ hu) (fun _ _ => rfl) rfl rfl rfl rfl ?_ ?_
        · show RingConc.handOf _ ((s.goto t _).pc t) _ = _
          rw [RingConc.goto_pc, hp]; rfl
        · show RingConc.waitsOf ((s.goto t _).pc t) _ = _
          rw [RingConc.goto_pc, hp]; rfl
      · trivial
  | count =>
    rw [hp] at hsy
    have hq : s.q.pc t = .idle := hsy
    have hh : s.hand t = none := by rw [RingConc.St.hand_eq hp hsy]; rfl
    have hw : s.waits t = false := by rw [RingConc.St.waits_eq hp hsy]; rfl
    dsimp only
    by_cases hc : s.counter ≥ s.size
    · rw [if_pos hc]
      refine ⟨ring_others (l := []) hi (fun u hu => RingConc.goto_pc_ne s _ hu) (fun _ _ => rfl) (by simp [RingConc.St.goto]),
        .wait (by simp [Buf.phase, hp, rPhase]) hh hw ?_ ?_ ?_⟩
      · show RingConc.handOf _ ((s.goto t _).pc t) (s.q.pc t) = _
        rw [RingConc.goto_pc, hq]; rfl
      · show RingConc.waitsOf ((s.goto t _).pc t) (s.q.pc t) = _
        rw [RingConc.goto_pc, hq]; rfl
      · rintro k B ⟨h1, h2, h3, h4⟩
        have : B.counter ≥ ({ B with counter := B.counter + 1 } : Buffer ε).size := by
          show B.counter ≥ B.size; rw [h2, h3]; exact hc
        refine ⟨h1, { B with counter := B.counter + 1 }, by simp [Buffer.ringClaim, this], h1, ?_, h3, h4⟩
        show B.counter + 1 = s.counter + 1
        rw [h2]
    · rw [if_neg hc]
      refine ⟨ring_others (l := []) hi (fun u hu => RingConc.goto_pc_ne s _ hu) (fun _ _ => rfl) (by simp [RingConc.St.goto]),
        .issue s.counter (by simp [Buf.phase, hp, rPhase]) hh hw ?_ ?_⟩
      · show RingConc.handOf _ ((s.goto t _).pc t) (s.q.pc t) = _
        rw [RingConc.goto_pc, hq]; rfl
      · rintro k B ⟨h1, h2, h3, h4⟩
        have : ¬ B.counter ≥ ({ B with counter := B.counter + 1 } : Buffer ε).size := by
          show ¬ B.counter ≥ B.size; rw [h2, h3]; exact hc
        have e : ∃ B', B.ringClaim k = (B', some B.counter) ∧ B'.mode = B.mode ∧ B'.counter = B.counter + 1 ∧
            B'.size = B.size ∧ B'.queue = B.queue := by
          simp only [Buffer.ringClaim, if_neg this, Prod.mk.injEq, and_true, exists_eq_left']
          simp [Buffer.size, Buffer.resetAt, Buffer.ringLoan]
        obtain ⟨B', e1, e2, e3, e4, e5⟩ := e
        refine ⟨B', ⟨e2.trans h1, ?_, by rw [e4, h3]; rfl, by rw [e5, h4]; rfl⟩, .inl ⟨h1, by rw [e1, h2]⟩⟩
        show B'.counter = s.counter + 1
        rw [e3, h2]
  | take =>
    rw [hp] at hsy
    generalize hq : s.q.pc t = qp at hsy
    have skip : ∀ (q' : Mpmc.St Nat) (p : RingConc.Pc), q'.log = s.q.log → q'.deqPos = s.q.deqPos →
        (∀ u, u ≠ t → q'.pc u = s.q.pc u) →
        RingConc.handOf s.q.log p (q'.pc t) = RingConc.handOf s.q.log .take qp →
        RingConc.waitsOf p (q'.pc t) = RingConc.waitsOf .take qp →
        Others (.ring s) t (.ring { s.goto t p with q := q' }) ∧ Turn ε (.ring s) t (.ring { s.goto t p with q := q' }) := by
      intro q' p e1 e2 e3 e4 e5
      refine ring_skip hi (fun u hu => RingConc.goto_pc_ne s _ hu) e3 e1 e2 rfl rfl ?_ ?_
      · show RingConc.handOf _ ((s.goto t _).pc t) (q'.pc t) = _
        rw [RingConc.goto_pc, hp, hq]; exact e4
      · show RingConc.waitsOf ((s.goto t _).pc t) (q'.pc t) = _
        rw [RingConc.goto_pc, hp, hq]; exact e5
    have hgo : s = s.goto t .take := by
      have : setf s.pc t .take = s.pc := by funext u; by_cases hu : u = t <;> simp [setf, hu, hp]
      rw [RingConc.St.goto, this]
    have skip' : ∀ q' : Mpmc.St Nat, q'.log = s.q.log → q'.deqPos = s.q.deqPos →
        (∀ u, u ≠ t → q'.pc u = s.q.pc u) →
        RingConc.handOf s.q.log .take (q'.pc t) = RingConc.handOf s.q.log .take qp →
        RingConc.waitsOf .take (q'.pc t) = RingConc.waitsOf .take qp →
        Others (.ring s) t (.ring { s with q := q' }) ∧ Turn ε (.ring s) t (.ring { s with q := q' }) := by
      intro q' e1 e2 e3 e4 e5
      have := skip q' .take e1 e2 e3 e4 e5
      rwa [← hgo] at this
    cases qp with
    | idle => exact skip' _ rfl rfl (hother _) (by rw [hself]; rfl) (by rw [hself]; rfl)
    | enqSeq x pos => rcases hsy with hx | hx <;> cases hx
    | enqReload x => rcases hsy with hx | hx <;> cases hx
    | enqCas x pos => rcases hsy with hx | hx <;> cases hx
    | enqWrite x pos => rcases hsy with hx | hx <;> cases hx
    | enqPub x pos => rcases hsy with hx | hx <;> cases hx
    | deqSeq pos =>
      have e : RingConc.qnext (RingConc.capacity s.size) s.q t sp =
          s.q.goto t (Mpmc.deqNext pos (s.q.seq (Mpmc.idx (RingConc.capacity s.size) pos))) := by simp only [RingConc.qnext, hq]
      show Others _ _ (.ring { s with q := RingConc.qnext _ s.q t sp }) ∧ Turn _ _ _ (.ring { s with q := RingConc.qnext _ s.q t sp })
      rw [e]
      refine skip' _ rfl rfl (hother _) ?_ ?_ <;> rw [hself] <;>
        rcases RingConc.deqNext_cases pos (s.q.seq (Mpmc.idx (RingConc.capacity s.size) pos)) with e | e | e <;> rw [e] <;> rfl
    | deqReload =>
      have e : RingConc.qnext (RingConc.capacity s.size) s.q t sp = s.q.goto t (.deqSeq s.q.deqPos) := by
        simp only [RingConc.qnext, hq]
      show Others _ _ (.ring { s with q := RingConc.qnext _ s.q t sp }) ∧ Turn _ _ _ (.ring { s with q := RingConc.qnext _ s.q t sp })
      rw [e]
      exact skip' _ rfl rfl (hother _) (by rw [hself]; rfl) (by rw [hself]; rfl)
    | deqCas pos =>
      show Others _ _ (.ring { s with q := RingConc.qnext _ s.q t sp }) ∧ Turn _ _ _ (.ring { s with q := RingConc.qnext _ s.q t sp })
      by_cases hc : s.q.deqPos = pos ∧ sp = false
      · have e : RingConc.qnext (RingConc.capacity s.size) s.q t sp = { s.q.goto t (.deqRead pos) with deqPos := pos + 1 } := by
          simp only [RingConc.qnext, hq, if_pos hc]
        rw [e]
        have hpub : pos < s.q.enqPos := by
          have := hi.pcs t; rw [hq] at this; exact hi.pubLt _ this.2
        obtain ⟨x, hx⟩ : ∃ x, s.q.log[pos]? = some x := by
          rw [List.getElem?_eq_getElem (by rw [hi.len]; exact hpub)]; exact ⟨_, rfl⟩
        have hit : s.q.items = x :: s.q.log.drop (pos + 1) := by
          rw [Mpmc.St.items, hc.1]
          obtain ⟨hlt, he⟩ := List.getElem?_eq_some_iff.1 hx
          rw [← he, List.drop_eq_getElem_cons hlt]
        refine ⟨ring_others (l := []) hi (fun _ _ => rfl) (hother _) (by simp [Mpmc.St.goto]), .take x (by simp [Buf.phase, hp, rPhase]) ?_ ?_ ?_ ?_⟩
        · show s.hand t = none
          rw [RingConc.St.hand_eq hp hq]; rfl
        · show s.waits t = true
          rw [RingConc.St.waits_eq hp hq]; rfl
        · show RingConc.handOf s.q.log (s.pc t) ((s.q.goto t _).pc t) = _
          rw [hp, hself]; exact hx
        · rintro k B ⟨h1, h2, h3, h4⟩
          have e : ∃ B', B.ringTake k = some (B', x) ∧ B'.mode = B.mode ∧ B'.counter = B.counter ∧
              B'.size = B.size ∧ B'.queue = s.q.log.drop (pos + 1) := by
            simp only [Buffer.ringTake, h4, hit, Option.some.injEq, Prod.mk.injEq, and_true, exists_eq_left']
            simp [Buffer.size, Buffer.resetAt, Buffer.ringLoan]
          obtain ⟨B', e1, e2, e3, e4, e5⟩ := e
          exact ⟨h1, B', e1, e2.trans h1, e3.trans h2, e4.trans h3, e5⟩
      · have e : RingConc.qnext (RingConc.capacity s.size) s.q t sp = s.q.goto t (.deqSeq s.q.deqPos) := by
          simp only [RingConc.qnext, hq, if_neg hc]
        rw [e]
        exact skip' _ rfl rfl (hother _) (by rw [hself]; rfl) (by rw [hself]; rfl)
    | deqRead pos =>
      have e : RingConc.qnext (RingConc.capacity s.size) s.q t sp =
          s.q.goto t (.deqPub pos (s.q.data (Mpmc.idx (RingConc.capacity s.size) pos))) := by
        simp only [RingConc.qnext, hq]
      show Others _ _ (.ring { s with q := RingConc.qnext _ s.q t sp }) ∧ Turn _ _ _ (.ring { s with q := RingConc.qnext _ s.q t sp })
      rw [e]
      exact skip' _ rfl rfl (hother _) (by rw [hself]; rfl) (by rw [hself]; rfl)
    | deqPub pos v =>
      have hpcs := hi.pcs t
      rw [hq] at hpcs
      have hqi : (RingConc.qnext (RingConc.capacity s.size) s.q t sp).pc t = .idle := by
        simp only [RingConc.qnext, hq]; exact hself _
      refine skip _ _ (by simp only [RingConc.qnext, hq]; rfl) (by simp only [RingConc.qnext, hq]; rfl) hoth ?_ ?_
      · rw [hqi]; exact hpcs.symm
      · rw [hqi]; rfl
  | give i =>
    rw [hp] at hsy
    have skip : ∀ (q' : Mpmc.St Nat) (p : RingConc.Pc), q'.log = s.q.log → q'.deqPos = s.q.deqPos →
        (∀ u, u ≠ t → q'.pc u = s.q.pc u) →
        RingConc.handOf s.q.log p (q'.pc t) = RingConc.handOf s.q.log (.give i) (s.q.pc t) →
        RingConc.waitsOf p (q'.pc t) = false →
        Others (.ring s) t (.ring { s.goto t p with q := q' }) ∧ Turn ε (.ring s) t (.ring { s.goto t p with q := q' }) := by
      intro q' p e1 e2 e3 e4 e5
      refine ring_skip hi (fun u hu => RingConc.goto_pc_ne s _ hu) e3 e1 e2 rfl rfl ?_ ?_
      · show RingConc.handOf _ ((s.goto t _).pc t) (q'.pc t) = _
        rw [RingConc.goto_pc, hp]; exact e4
      · show RingConc.waitsOf ((s.goto t _).pc t) (q'.pc t) = _
        rw [RingConc.goto_pc, hp]; exact e5.trans (by cases s.q.pc t <;> rfl)
    have hgo : s = s.goto t (.give i) := by
      have : setf s.pc t (.give i) = s.pc := by funext u; by_cases hu : u = t <;> simp [setf, hu, hp]
      rw [RingConc.St.goto, this]
    have skip' : ∀ q' : Mpmc.St Nat, q'.log = s.q.log → q'.deqPos = s.q.deqPos →
        (∀ u, u ≠ t → q'.pc u = s.q.pc u) →
        RingConc.handOf s.q.log (.give i) (q'.pc t) = RingConc.handOf s.q.log (.give i) (s.q.pc t) →
        Others (.ring s) t (.ring { s with q := q' }) ∧ Turn ε (.ring s) t (.ring { s with q := q' }) := by
      intro q' e1 e2 e3 e4
      have := skip q' (.give i) e1 e2 e3 e4 (by cases q'.pc t <;> rfl)
      rwa [← hgo] at this
    rcases hsy with hq | ⟨pos, hq⟩ | hq | ⟨pos, hq⟩ | ⟨pos, hq⟩ | ⟨pos, hq⟩ <;> simp only [hq]
    · exact skip' _ rfl rfl (hother _) (by rw [hself, hq]; rfl)
    · have e : RingConc.qnext (RingConc.capacity s.size) s.q t sp =
          s.q.goto t (Mpmc.enqNext i pos (s.q.seq (Mpmc.idx (RingConc.capacity s.size) pos))) := by simp only [RingConc.qnext, hq]
      rw [e]
      refine skip' _ rfl rfl (hother _) ?_
      rw [hself, hq]
      rcases RingConc.enqNext_cases i pos (s.q.seq (Mpmc.idx (RingConc.capacity s.size) pos)) with e | e | e <;> rw [e] <;> rfl
    · have e : RingConc.qnext (RingConc.capacity s.size) s.q t sp = s.q.goto t (.enqSeq i s.q.enqPos) := by
        simp only [RingConc.qnext, hq]
      rw [e]
      exact skip' _ rfl rfl (hother _) (by rw [hself, hq]; rfl)
    · by_cases hc : s.q.enqPos = pos ∧ sp = false
      · have e : RingConc.qnext (RingConc.capacity s.size) s.q t sp =
            { s.q.goto t (.enqWrite i pos) with enqPos := pos + 1, log := s.q.log ++ [i] } := by
          simp only [RingConc.qnext, hq, if_pos hc]
        rw [e]
        refine ⟨ring_others (l := [i]) hi (fun _ _ => rfl) (hother _) rfl, .put i (by simp [Buf.phase, hp, rPhase]) ?_ ?_ ?_⟩
        · show s.hand t = some i
          rw [RingConc.St.hand_eq hp hq]; rfl
        · show RingConc.handOf _ (s.pc t) ((s.q.goto t _).pc t) = _
          rw [hp, hself]; rfl
        · rintro B ⟨h1, h2, h3, h4⟩
          simp only [Buffer.returnChunk, h1, Buffer.returnChunkRing]
          refine ⟨rfl, h2, h3, ?_⟩
          show B.queue ++ [i] = (s.q.log ++ [i]).drop s.q.deqPos
          rw [h4, Mpmc.St.items, List.drop_append_of_le_length (by rw [hi.len]; exact hi.deqLe)]
      · have e : RingConc.qnext (RingConc.capacity s.size) s.q t sp = s.q.goto t (.enqSeq i s.q.enqPos) := by
          simp only [RingConc.qnext, hq, if_neg hc]
        rw [e]
        exact skip' _ rfl rfl (hother _) (by rw [hself, hq]; rfl)
    · have e : RingConc.qnext (RingConc.capacity s.size) s.q t sp =
          { s.q.goto t (.enqPub i pos) with data := setf s.q.data (Mpmc.idx (RingConc.capacity s.size) pos) (some i) } := by
        simp only [RingConc.qnext, hq]
      rw [e]
      refine skip' _ rfl rfl (hother _) ?_
      show RingConc.handOf _ _ ((s.q.goto t _).pc t) = _
      rw [hself, hq]; rfl
    · have hqi : (RingConc.qnext (RingConc.capacity s.size) s.q t sp).pc t = .idle := by
        simp only [RingConc.qnext, hq]; exact hself _
      refine skip _ _ (by simp only [RingConc.qnext, hq]; rfl) (by simp only [RingConc.qnext, hq]; rfl) hoth ?_ ?_
      · rw [hqi, hq]; rfl
      · rw [hqi]; rfl

theorem buf_turn {b : Buf} (h : b.Good) (sp : Bool) : TurnOk ε b t (b.step t sp) := by
  cases b with
  | fixed s => exact fixed_turn s
  | ring s =>
    obtain ⟨n, h1, h2, hr⟩ := h
    obtain ⟨A, hA⟩ := hr.rel h1 h2 Unit
    exact ring_turn hA (hr.inv h1 h2) sp

theorem buf_get {b b' : Buf} (h : b.get t = some b') :
    Others b t b' ∧ b'.hand t = none ∧ b'.waits t = false ∧ ∀ B : Buffer ε, BufSeen b B → BufSeen b' B := by
  cases b with
  | fixed s =>
    simp only [Buf.get, FSt.get, Option.map_eq_some_iff] at h
    obtain ⟨s', h1, rfl⟩ := h
    split at h1
    · cases h1
      exact ⟨fixed_others rfl, by simp [Buf.hand, FPc.hand], rfl, fun _ h => h⟩
    · cases h1
  | ring s =>
    simp only [Buf.get, RingConc.St.next] at h
    split at h
    · cases h
      refine ⟨fun u hu => ?_, ?_, ?_, fun _ h => h⟩
      · simp [Buf.hand, Buf.waits, RingConc.St.hand, RingConc.St.waits, RingConc.goto_pc_ne s _ hu, RingConc.St.goto, setf_ne _ _ hu]
      · show RingConc.handOf _ ((s.goto t _).pc t) (s.q.pc t) = none
        rw [RingConc.goto_pc]; rfl
      · show RingConc.waitsOf ((s.goto t _).pc t) (s.q.pc t) = false
        rw [RingConc.goto_pc]; rfl
    · cases h

theorem buf_ret {b b' : Buf} {i : Nat} (hg : b.Good) (h : b.ret t i = some b') :
    Others b t b' ∧ b'.waits t = false ∧ (b'.hand t = some i ∧ (∀ B : Buffer ε, BufSeen b B → BufSeen b' B) ∨
      b'.hand t = none ∧ ∀ B : Buffer ε, BufSeen b B → BufSeen b' (B.returnChunk i)) := by
  cases b with
  | fixed s =>
    simp only [Buf.ret, FSt.ret, Option.map_eq_some_iff] at h
    obtain ⟨s', h1, rfl⟩ := h
    split at h1
    · cases h1
      refine ⟨fixed_others rfl, rfl, .inr ⟨by simp [Buf.hand, FPc.hand], ?_⟩⟩
      rintro B ⟨h1, h2, h3⟩
      simp only [Buffer.returnChunk, h1, Buffer.returnChunkFixed]
      exact ⟨rfl, h2, h3⟩
    · cases h1
  | ring s =>
    obtain ⟨n, h1, h2, hr⟩ := hg
    obtain ⟨A, hA⟩ := hr.rel h1 h2 Unit
    simp only [Buf.ret, RingConc.St.next] at h
    split at h
    · rename_i hc
      cases h
      have hq : s.q.pc t = .idle := by have := hA.sync t; rw [hc.1] at this; exact this
      refine ⟨fun u hu => ?_, ?_, .inl ⟨?_, fun _ h => h⟩⟩
      · simp [Buf.hand, Buf.waits, RingConc.St.hand, RingConc.St.waits, RingConc.St.goto, setf_ne _ _ hu]
      · show RingConc.waitsOf ((s.goto t _).pc t) (s.q.pc t) = false
        rw [RingConc.goto_pc]; rfl
      · show RingConc.handOf _ ((s.goto t _).pc t) (s.q.pc t) = some i
        rw [RingConc.goto_pc, hq]; rfl
    · cases h

end Phosphor.LogBuf
