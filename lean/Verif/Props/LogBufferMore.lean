import Verif.Props.LogBufferAfter
import Verif.Props.Capacity
/-
C108: registration, names, handed out buffers and sufficient buffers over the code of the built-in
buffers (C42, C40, C43, C97 for the log whose `getChunk`, `returnChunk` and `deregisterThread` take many
steps).
-/
namespace Phosphor.LogBuf
open TLog Custom
variable {ε : Type} {tid : Nat → Nat} {o : List (Nat × Nat × ε)} {x x' : XSt ε} {s s' : St ε} {t b : Nat}

theorem Seen.core_out (h : Seen tid o x s) (hd : ∀ u, x.c.log.pc u ≠ .deregBody) : LogBuf.core s = LogBuf.core x.c.log := by
  rw [h.core]; exact seenCore_none (fun u _ => hd u)

/-- C108 (C42 over the code of the buffers): while nobody is inside of `deregisterThread`, the registered
threads are those whose last successful call was `registerThread`, each once. -/
theorem C108_registered {L : List (Nat × XAct ε)} (hb : ∀ y ∈ L, BuiltIn y.2) (hL : XSt.init.run tid L = .to x)
    (hd : ∀ u, x.c.log.pc u ≠ .deregBody) :
    (∀ t, t ∈ x.c.log.registered ↔ isReg t x.c.log.hist = true) ∧ x.c.log.registered.Nodup := by
  obtain ⟨l, s, h1, h2, h3, hS⟩ := C102_refines hb hL
  have hr : TLog.Reachable true tid s := reachable_run .init h1
  obtain ⟨e1, e2, e3, e4, e5⟩ := core_iff.1 (hS.core_out hd)
  have := C42_registered hr
  rw [e1, e4] at this
  exact this

/-- C108 (C40 over the code of the buffers): when thread ids are not reused, and while nobody is inside of
`deregisterThread`, the names are what the history of registrations and runs says. -/
theorem C108_names (hinj : ∀ u v, tid u = tid v → u = v) {L : List (Nat × XAct ε)} (hb : ∀ y ∈ L, BuiltIn y.2)
    (hL : XSt.init.run tid L = .to x) (hd : ∀ u, x.c.log.pc u ≠ .deregBody) (t : Nat) :
    x.c.log.names (tid t) = (record t x.c.log.hist).1 := by
  obtain ⟨l, s, h1, h2, h3, hS⟩ := C102_refines hb hL
  have hr : TLog.Reachable true tid s := reachable_run .init h1
  obtain ⟨e1, e2, e3, e4, e5⟩ := core_iff.1 (hS.core_out hd)
  have := C40_exact hinj hr t
  rw [e2, e4] at this
  exact this

theorem enter_other {buf buf' : Nat → Buf} {k : Option Call} (he : enter buf k = some buf')
    (hk : ∀ t p, k = some (.getBegin t p) → p ≠ b) (hk' : ∀ t p i, k = some (.retBegin t p i) → p ≠ b) :
    buf' b = buf b := by
  unfold enter at he
  split at he
  · rename_i t p
    obtain ⟨b', _, e⟩ := Option.map_eq_some_iff.1 he
    rw [← e, setf_ne _ _ (Ne.symm (hk t p rfl))]
  · rename_i t p i
    obtain ⟨b', _, e⟩ := Option.map_eq_some_iff.1 he
    rw [← e, setf_ne _ _ (Ne.symm (hk' t p i rfl))]
  · cases he; rfl

theorem logged_other {q : Out (CSt ε)}
    (ho : ∀ c', q = .to c' → LogStep x.c t c' ∧ Custom.Reachable tid c')
    (hs : x.logged t q = .to x') (hb : x.c.log.buffer ≠ some b) (hn : b ≠ x.c.log.nextBuf) : x'.buf b = x.buf b := by
  unfold XSt.logged at hs
  split at hs
  · rename_i c'
    obtain ⟨h1, h2⟩ := ho c' rfl
    split at hs
    · rename_i b' hb'
      cases hs
      cases h1 with
      | quiet nb calls buf pcs ins me =>
        unfold XSt.bufs at hb'
        rw [if_pos nb, enter_quiet calls] at hb'
        cases hb'; rfl
      | get e p hp eq =>
        subst eq
        have hbp : x.c.log.buffer = some p := (h2.inv.inside t p (by simp [setf_self])).2
        unfold XSt.bufs at hb'
        rw [if_pos (by rfl), called_some (x := .getBegin t p) rfl] at hb'
        exact enter_other hb' (fun t' p' e => by cases e; exact fun e => hb (e ▸ hbp)) (fun _ _ _ e => by cases e)
      | ret p i hr eq =>
        subst eq
        have hbp : x.c.log.buffer = some p := (h2.inv.inside t p (by simp [setf_self])).2
        unfold XSt.bufs at hb'
        rw [if_pos (by rfl), called_some (x := .retBegin t p i) rfl] at hb'
        exact enter_other hb' (fun _ _ e => by cases e) (fun t' p' i' e => by cases e; exact fun e => hb (e ▸ hbp))
      | create n st hp log calls ins =>
        unfold XSt.bufs at hb'
        split at hb'
        · rw [enter_quiet calls] at hb'; cases hb'; rfl
        · split at hb'
          · split at hb'
            · cases hb'; exact setf_ne _ _ hn
            · cases hb'
          · cases hb'
    · cases hs
  · cases hs
  · cases hs

/-- A step changes no buffer but the one of the log and the one it creates. -/
theorem next_bufs (hX : XInv tid x) {a : XAct ε} (hs : x.next tid t a = .to x') (hb : x.c.log.buffer ≠ some b)
    (hn : b ≠ x.c.log.nextBuf) : x'.buf b = x.buf b := by
  cases a with
  | log a =>
    simp only [XSt.next] at hs
    split at hs
    · rename_i hin
      exact logged_other (fun c' hc => ⟨logStep_act hX.inv hin hc, .step hX.reach hc⟩) hs hb hn
    · cases hs
  | stats =>
    simp only [XSt.next] at hs
    split at hs
    · rename_i hin
      exact logged_other (fun c' hc => ⟨logStep_stats hc, .step hX.reach hc⟩) hs hb hn
    · cases hs
  | access sp =>
    simp only [XSt.next] at hs
    split at hs
    · rename_i p hin
      have hne : b ≠ p := fun e => hb (e ▸ (hX.inv.inside t p hin).2)
      have back : ∀ {buf : Nat → Buf} {q : Out (CSt ε)}, XSt.back buf q = .to x' → x'.buf = buf := by
        intro buf q h; cases q <;> cases h; rfl
      unfold XSt.access at hs
      split at hs
      · rw [back hs]
      · split at hs
        · cases hs
        · cases hs
        · cases hs; exact setf_ne _ _ hne
        · rw [back hs]; exact setf_ne _ _ hne
        · rw [back hs]; exact setf_ne _ _ hne
    · cases hs

/-- C108 (C43 over the code of the buffers): when a buffer is in the user's hands no thread is inside of one
of its functions, has a pointer to it or holds one of its chunks. -/
theorem C108_unreferenced (h : Reachable tid x) (hb : x.c.log.status b = .handed) (u : Nat) :
    x.c.inCall u ≠ some b ∧ (x.c.log.pc u).bufPtr ≠ some b ∧ (∀ i, (x.c.log.tenant u).chunk ≠ some (b, i)) ∧
    x.c.log.buffer ≠ some b := by
  have hI := h.inv.inv
  have hnb : x.c.log.buffer ≠ some b := fun e => by
    have := (hI.ctl.status b).2 e; rw [hb] at this; cases this
  refine ⟨fun e => hnb (hI.inside u b e).2, fun e => ?_, fun i e => ?_, hnb⟩
  · exact hnb (hI.ctl.ptr u b e)
  · exact hnb (hI.ctl.chunkBuf u b i e)

/-- C108 (C43 over the code of the buffers): from the moment a buffer is handed out, whatever any threads
do, no event is stored in it and no access is made to its counters, its queue and the owners of its chunks. -/
theorem C108_never_written {L0 L : List (Nat × XAct ε)} (hb0 : ∀ y ∈ L0, BuiltIn y.2)
    (hL0 : XSt.init.run tid L0 = .to x) (hb : ∀ y ∈ L, BuiltIn y.2) (hL : x.run tid L = .to x')
    (hh : x.c.log.status b = .handed ∨ x.c.log.status b = .freed) :
    x'.buf b = x.buf b ∧ (∀ y ∈ stores tid x L, y.1 ≠ b) := by
  have hX0 : Reachable tid x := run_reachable .init L0 hL0
  obtain ⟨l0, s, h1, h2, h3, hS⟩ := C102_refines hb0 hL0
  have hr : TLog.Reachable true tid s := reachable_run .init h1
  clear hL0 hb0 h1 h2 h3
  generalize stores tid XSt.init L0 = o at hS
  induction L generalizing x s o with
  | nil => cases hL; exact ⟨rfl, by simp [stores]⟩
  | cons y L ih =>
    obtain ⟨t, a⟩ := y
    simp only [XSt.run] at hL
    split at hL
    · rename_i x1 g1
      have hX := hX0.inv
      obtain ⟨s1, ⟨k, k1, k2, k3⟩, hS1⟩ := sim_next hS hX hr (hb (t, a) (by simp)) g1
      have hr1 := reachable_run hr k3
      have hst : ∀ {s s' : St ε} {l : List (Nat × Choice ε)}, TLog.Reachable true tid s →
          s.status b = .handed ∨ s.status b = .freed → s.run true tid l = .to s' →
          s'.stored b = s.stored b ∧ (s'.status b = .handed ∨ s'.status b = .freed) := by
        intro s s' l hr hh hl
        induction l generalizing s with
        | nil => cases hl; exact ⟨rfl, hh⟩
        | cons p l ih =>
          obtain ⟨u, c⟩ := p
          simp only [St.run] at hl
          split at hl
          · rename_i s1 hs
            have k := C43_step hr hh hs
            have k' := ih (hr.step hs) k.2.2.2 hl
            exact ⟨k'.1.trans k.2.2.1, k'.2⟩
          · cases hl
          · cases hl
      have hh1 := hst hr (by rw [hS.status]; exact hh) k3
      have hnb : x.c.log.buffer ≠ some b := fun e => by
        have := (hX.inv.ctl.status b).2 e; rw [this] at hh; rcases hh with hh | hh <;> cases hh
      have hnn : b ≠ x.c.log.nextBuf := fun e => by
        have := (hX.inv.ctl.fresh b).2 (by omega); rw [this] at hh; rcases hh with hh | hh <;> cases hh
      obtain ⟨i1, i2⟩ := ih (fun y hy => hb y (by simp [hy])) hL (by rw [← hS1.status]; exact hh1.2)
        (hX0.step g1) _ hr1 _ hS1
      refine ⟨i1.trans (next_bufs hX g1 hnb hnn), ?_⟩
      intro y hy
      simp only [stores, g1, List.mem_append] at hy
      rcases hy with hy | hy
      · intro e
        have h5 := congrFun hh1.1 y.2.1
        rw [hS1.stored, hS.stored, eventsIn_append] at h5
        have h6 : eventsIn (storing x t a) b y.2.1 = [] := by simpa using h5
        simp only [eventsIn, List.map_eq_nil_iff, List.filter_eq_nil_iff] at h6
        exact h6 y hy (by simp [e])
      · exact i2 y hy
    · cases hL
    · cases hL

/-- As C97_enough, about what was stored. -/
theorem enough_fill (h : TLog.Reachable true tid s) {p : Nat} {st : List Frame}
    (hp : s.pc p = .held .startEnable st) (hb : s.buffer = some b) {T : List Nat}
    (hT : T.Nodup) (hq : ∀ u, u ∉ T → (s.pc u).logging = false)
    {l : List (Nat × Choice ε)} (hr : s.run true tid ((p, .step) :: l) = .to s') (hl : OneRun T l)
    (hsum : (T.map (fun t => chunksFor (((s.pc t).event.toList ++ logged t l).length))).sum ≤ s.config.size / sizeofTraceChunk) :
    Fill b s' ∧ ∀ t, (s.tenant t).initialised = true →
      s'.stored b t ++ (s'.pc t).event.toList = (s.pc t).event.toList ++ logged t l := by
  obtain ⟨s1, h1, hr1, hf, ha, hst, hev, hten, hlen, hmode⟩ := Fill.begins h hp hb hq
  simp only [St.run, h1] at hr
  rcases hf.run ha hr1 hr hl with ⟨g1, g2, g3, _⟩ | ⟨l1, l2, s2, u, e, rfl, g2, g3, g4, g5, g6, g7⟩
  · refine ⟨g1, fun t ht => ?_⟩
    rw [(g3 t (by rw [hten]; exact ht)).2, hst, hev, List.nil_append]
  · exfalso
    have hlast := hr1.ctl.last b hf.buf
    have := g4.room (TLog.run_reachable hr1 g2) hT g5 g6
      (n := fun t => ((s.pc t).event.toList ++ logged t (l1 ++ l2)).length) (fun v => ?_) ?_
    · omega
    · have hsub := (C34_subsequence (t := v) hr1 g2 (b := b) (by omega)).length_le
      rw [hst, hev, List.nil_append] at hsub
      simp only [List.length_append, logged_append] at hsub ⊢
      omega
    · rw [(run_counter hr1 (b := b) (by omega) g2).2.1, hlen]; exact hsum

/-- In an execution over the code of the buffers only threads in `T` log, nobody deregisters, and nobody
starts or stops tracing. -/
def OneRunX (T : List Nat) (L : List (Nat × XAct ε)) : Prop :=
  ∀ u c, (u, .log c) ∈ L → (∀ e, c = .log e → u ∈ T) ∧ c ≠ .deregister ∧ (∀ cfg, c ≠ .start cfg) ∧ (∀ sh, c ≠ .stop sh)

theorem oneRun_of {T : List Nat} {l : List (Nat × Choice ε)} {L : List (Nat × XAct ε)} (h : OneRunX T L)
    (e : begins l = beginsX L) : OneRun T l := by
  intro u c hm
  by_cases hi : inner c = true
  · cases c <;> first | (cases hi; done) | simp
  · have h1 : (u, c) ∈ begins l := by simp [begins, hm, hi]
    rw [e] at h1
    simp only [beginsX, List.mem_flatMap, List.mem_map] at h1
    obtain ⟨⟨v, a⟩, h2, d, h3, h4⟩ := h1
    cases h4
    cases a with
    | log c' =>
      simp only [begun] at h3
      split at h3
      · cases h3
      · simp only [List.mem_singleton] at h3
        subst h3
        exact h _ _ h2
    | access sp => cases h3
    | stats => cases h3

theorem Seen.logging (h : Seen tid o x s) (u : Nat) : (s.pc u).logging = (x.c.log.pc u).logging := by
  rw [h.pc, seenPc]
  generalize (seenChunk x u).isSome = a
  generalize seenWait x u = w
  cases x.c.log.pc u <;> cases a <;> cases w <;> rfl

/-- C108 (C97 over the code of the buffers): a run begins; from then on only threads in `T` log, and nobody
deregisters, starts or stops. If the configured size has room for one chunk per hundred events of each
thread, rounded up per thread, then at any later moment tracing is on, the counter of the buffer is not
beyond its size, and each thread that was registered has stored in the buffer exactly the events it has
logged, in order (but for the one that it is about to store). -/
theorem C108_enough {L0 L : List (Nat × XAct ε)} (hb0 : ∀ y ∈ L0, BuiltIn y.2) (hL0 : XSt.init.run tid L0 = .to x)
    {p : Nat} {st : List Frame} (hp : x.c.log.pc p = .held .startEnable st) (hbuf : x.c.log.buffer = some b)
    {T : List Nat} (hT : T.Nodup) (hq : ∀ u, u ∉ T → (x.c.log.pc u).logging = false)
    (hL : x.run tid ((p, .log .step) :: L) = .to x') (hl : OneRunX T L)
    (hsum : (T.map (fun t => chunksFor (((x.c.log.pc t).event.toList ++ logsBy t L).length))).sum ≤
      x.c.log.config.size / sizeofTraceChunk) :
    x'.c.log.enabled = true ∧ x'.c.log.buffer = some b ∧ (∀ f, x'.buf b = .fixed f → f.issued ≤ f.size) ∧
    (∀ r, x'.buf b = .ring r → r.counter ≤ r.size) ∧
    ∀ t, (x.c.log.tenant t).initialised = true →
      eventsIn (stores tid XSt.init L0 ++ stores tid x ((p, .log .step) :: L)) b t ++ (x'.c.log.pc t).event.toList =
        (x.c.log.pc t).event.toList ++ logsBy t L := by
  obtain ⟨l0, s, h1, h2, h3, hS⟩ := C102_refines hb0 hL0
  have hr : TLog.Reachable true tid s := reachable_run .init h1
  have hX := (run_reachable .init L0 hL0).inv
  have hbL : ∀ y ∈ L, BuiltIn y.2 := by
    rintro ⟨u, a⟩ hy
    cases a with
    | log c =>
      cases c with
      | start cfg => exact absurd rfl ((hl u _ hy).2.2.1 cfg)
      | _ => trivial
    | _ => trivial
  have hps : s.pc p = .held .startEnable st := by
    rw [hS.pc, seenPc, hp]; rfl
  have hoff : s.enabled = false := hr.ctl.off p (by rw [hps]; rfl)
  simp only [XSt.run] at hL
  split at hL
  · rename_i x1 g1
    obtain ⟨s1, ⟨k, k1, k2, k3⟩, hS1⟩ := sim_next hS hX hr (a := .log .step) trivial g1
    obtain ⟨l, s2, q1, q2, q3, hS2⟩ := sim_run hS1 (hX.next g1) (reachable_run hr k3) hbL hL
    have hon : x1.c.log.enabled = true := by
      simp only [XSt.next] at g1
      split at g1
      · rename_i hin
        unfold XSt.logged at g1
        split at g1
        · rename_i c' hc
          split at g1
          · cases g1
            simp only [CSt.next, hin, CSt.step, hp, CSt.lift] at hc
            obtain ⟨q, _, e⟩ := TLog.pop_goto x.c.log.enable p st
            have : x.c.log.next true tid p .step = .to (x.c.log.enable.pop p st) := by
              simp [St.next, St.logStep, St.heldStep, hp]
            simp only [Bool.false_eq_true, if_false] at hc
            rw [this, e] at hc
            cases hc
            rfl
          · cases g1
        · cases g1
        · cases g1
      · cases g1
    have hk : ∃ k' : List (Choice ε), s.run true tid ((p, .step) :: (k'.map (fun c => (p, c)) ++ l)) = .to s2 ∧
        k'.filter (fun c => !inner c) = [] := by
      cases k with
      | nil =>
        cases k3
        have := hS1.enabled
        rw [hoff, hon] at this
        cases this
      | cons c k' =>
        have hfull := run_split k3 q1
        have k2 : (c :: k').filter (fun c => !inner c) = [] := k2
        rw [List.filter_eq_nil_iff] at k2
        have hc : inner c = true := by simpa using k2 c (by simp)
        refine ⟨k', ?_, List.filter_eq_nil_iff.2 (fun a ha => k2 a (by simp [ha]))⟩
        simp only [List.map_cons, List.cons_append, St.run] at hfull ⊢
        have : s.next true tid p c = s.next true tid p .step := by
          cases c <;> first | rfl | (cases hc; done) | simp [St.next, St.logStep, St.heldStep, hps]
        rw [this] at hfull
        exact hfull
    obtain ⟨k', hk1, hk2⟩ := hk
    have hbeg : begins (k'.map (fun c => (p, c)) ++ l) = beginsX L := by
      rw [← q2]
      simp only [begins, List.filter_append]
      rw [List.filter_map]
      have : k'.filter ((fun y : Nat × Choice ε => !inner y.2) ∘ fun c => (p, c)) = [] := hk2
      rw [this]; rfl
    have hlog : ∀ t, logged t (k'.map (fun c => (p, c)) ++ l) = logsBy t L := fun t => by
      rw [← logged_begins, hbeg, logged_beginsX]
    obtain ⟨F, st2⟩ := enough_fill hr hps (by rw [hS.buffer]; exact hbuf) hT
      (fun u hu => by rw [hS.logging]; exact hq u hu) hk1 (oneRun_of hl hbeg)
      (by rw [hS.config]; simpa only [hS.event, hlog] using hsum)
    have hb2 : x'.c.log.buffer = some b := by rw [← hS2.buffer]; exact F.buf
    have hB := hS2.bufs b hb2
    have hcnt := F.count
    refine ⟨by rw [← hS2.enabled]; exact F.en, hb2, fun f hf => ?_, fun r hr' => ?_, fun t ht => ?_⟩
    · rw [hf] at hB
      obtain ⟨-, c1, c2⟩ := hB
      rw [← c1, ← c2]; exact hcnt
    · rw [hr'] at hB
      obtain ⟨-, c1, c2, -⟩ := hB
      rw [← c1, ← c2]; exact hcnt
    · have hnd : x.c.log.pc t ≠ .deregBody := by
        intro e
        have h5 := (hX.inv.ctl.own t).2 (by rw [e]; rfl)
        have h6 := (hX.inv.ctl.own p).2 (by rw [hp]; rfl)
        rw [h5] at h6; cases h6
        rw [e] at hp; cases hp
      have := st2 t (by rw [hS.init hnd]; exact ht)
      rw [hS2.stored, hS2.event, hS.event, hlog] at this
      simpa only [stores, g1, List.append_assoc] using this
  · cases hL
  · cases hL

/-! ### Cases that meet the hypotheses -/

/-- Threads 1 and 2 register, with names; tracing starts, up to the moment at which it is turned on. -/
def named (m : BufferMode) : List (Nat × XAct Nat) :=
  [(1, .log (.register ['a']))] ++ go 1 2 ++ [(2, .log (.register ['b']))] ++ go 2 2 ++
    [(0, .log .lock), (0, .log (.start (cfg1 m)))] ++ go 0 1

/-- Thread 1 logs 7 and 9, getting its chunk on the way; thread 0 goes on. -/
def twoLogs : List (Nat × XAct Nat) :=
  [(0, .log .ret)] ++ go 0 1 ++ [(1, .log (.log 7))] ++ go 1 9 ++ inb 1 3 ++ go 1 2 ++ [(1, .log (.log 9))] ++ go 1 6

/-- The conditions and the conclusion of C108_enough, with `T = [1]`: the two events need one chunk. -/
example : (∀ m : BufferMode, m = .fixed ∨ m = .ring →
      checkO (named m) (fun x o => o == [] && x.c.log.pc 0 == .held .startEnable [.resumeUser] && x.c.log.buffer == some 0 &&
        (x.c.log.tenant 1).initialised && x.c.log.pc 1 == .idle && x.c.log.config.size / sizeofTraceChunk == 1) = true ∧
      checkO (named m ++ go 0 1 ++ twoLogs) (fun x o => o == [(0, 1, 7), (0, 1, 9)] && x.c.log.enabled &&
        x.c.log.buffer == some 0 && x.c.log.pc 1 == .idle) = true) ∧
    chunksFor (logsBy 1 twoLogs).length = 1 ∧ logsBy 1 twoLogs = [7, 9] := by
  refine ⟨?_, by decide +kernel⟩
  rintro m (rfl | rfl) <;> decide +kernel

theorem twoLogs_one : OneRunX [1] twoLogs := by
  intro u c hm
  have key : ∀ y ∈ twoLogs, match y with
      | (u, .log (.log _)) => u = 1
      | (_, .log .deregister) | (_, .log (.start _)) | (_, .log (.stop _)) => False
      | _ => True := by
    intro y hy
    simp only [twoLogs, go, inb, List.mem_append, List.mem_replicate, List.mem_cons, List.not_mem_nil, or_false] at hy
    rcases hy with ((((((rfl | ⟨_, rfl⟩) | rfl) | ⟨_, rfl⟩) | ⟨_, rfl⟩) | ⟨_, rfl⟩) | rfl) | ⟨_, rfl⟩ <;> trivial
  have := key _ hm
  cases c <;> simp_all

/-- Thread 1 departs while tracing is on, which keeps its name; nobody is inside of `deregisterThread`. -/
example : checkO (named .ring ++ go 0 1 ++ twoLogs ++ [(1, .log .deregister)] ++ go 1 1 ++ inb 1 6 ++ go 1 2)
    (fun x _ => x.c.log.registered == [2] && x.c.log.names 1 == some ['a'] && x.c.log.names 2 == some ['b'] &&
      isReg 2 x.c.log.hist && !isReg 1 x.c.log.hist && x.c.log.pc 1 == .idle && x.c.log.pc 0 == .idle &&
      (record 1 x.c.log.hist).1 == some ['a']) = true := by decide +kernel

/-- The trace is stopped and the buffer handed out. -/
def handed : List (Nat × XAct Nat) :=
  named .ring ++ go 0 1 ++ twoLogs ++ [(0, .log .lock), (0, .log (.stop false))] ++ go 0 7 ++ [(0, .log .getBuffer)]

/-- Tracing starts again, and thread 1 logs into another buffer. -/
def nextRun : List (Nat × XAct Nat) :=
  [(0, .log (.start (cfg1 .fixed)))] ++ go 0 2 ++ [(1, .log (.log 5))] ++ go 1 9 ++ inb 1 3 ++ go 1 2

example : checkO handed (fun x o => o == [(0, 1, 7), (0, 1, 9)] && x.c.log.status 0 == .handed) = true ∧
    checkO (handed ++ nextRun) (fun x o => o == [(0, 1, 7), (0, 1, 9), (1, 1, 5)] && x.c.log.status 0 == .handed &&
      x.c.log.buffer == some 1 && x.c.log.pc 1 == .idle) = true := by decide +kernel

end Phosphor.LogBuf
