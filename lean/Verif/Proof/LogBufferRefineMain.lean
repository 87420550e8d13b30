import Verif.Proof.LogBufferRefineNext
/-
The log on its built-in buffers does what the log of atomic buffers does.
-/
namespace Phosphor.LogBuf
open TLog Custom
variable {ε : Type} {tid : Nat → Nat} {o o' : List (Nat × Nat × ε)} {x x' : XSt ε} {s s' : St ε} {t p : Nat}

theorem bufs_plain {c' : CSt ε} {b : Nat → Buf} (hb : x.bufs t c' = some b) (h1 : toCreate (x.c.log.pc t) = none)
    (h2 : c'.calls = x.c.calls ∨ ∃ y, quietCall y ∧ c'.calls = y :: x.c.calls) : b = x.buf := by
  by_cases h : c'.log.nextBuf = x.c.log.nextBuf
  · exact bufs_same hb h h2
  · unfold XSt.bufs at hb
    rw [if_neg h, h1] at hb
    cases hb

theorem bufs_begin {c' : CSt ε} {b : Nat → Buf} {y : Call} (hb : x.bufs t c' = some b) (h1 : c'.log.nextBuf = x.c.log.nextBuf)
    (h2 : c'.calls = y :: x.c.calls) : enter x.buf (some y) = some b := by
  unfold XSt.bufs at hb
  rw [if_pos h1, called_some h2] at hb
  exact hb

theorem plain_create (h : plainPc x.c.log t) : toCreate (x.c.log.pc t) = none := by
  unfold toCreate
  split
  · rename_i hp
    exfalso
    simp [plainPc, hp] at h
  · rfl

theorem sim_giveBack (hS : Seen tid o x s) (hX : XInv tid x) (hr : TLog.Reachable true tid s) (hin : x.c.inCall t = none)
    (hret : returning (x.c.log.pc t) = true) {q i : Nat} (hb : x.c.log.buffer = some p)
    (hc : (x.c.log.tenant t).chunk = some (q, i)) {c' : CSt ε} {b : Nat → Buf}
    (hs : x.c.giveBack t p q i = .to c') (hbuf : x.bufs t c' = some b) :
    ∃ s', By tid t [] s s' ∧ Seen tid o ⟨c', b⟩ s' := by
  unfold CSt.giveBack at hs
  split at hs <;> rename_i hm
  · cases hs
    obtain ⟨_, rfl⟩ := hm
    have := bufs_begin hbuf rfl rfl
    simp only [enter, Option.map_eq_some_iff] at this
    obtain ⟨b', hg, rfl⟩ := this
    exact sim_ret hS hX hr hin hret hb hc hg
  · cases hs

/-- A step of the log. -/
theorem sim_step (hS : Seen tid o x s) (hX : XInv tid x) (hr : TLog.Reachable true tid s) (hin : x.c.inCall t = none)
    {sp : Bool} {c' : CSt ε} {b : Nat → Buf} (hs : x.c.step tid t sp = .to c') (hbuf : x.bufs t c' = some b) :
    ∃ s', By tid t [] s s' ∧ Seen tid (o ++ storing x t (.log .step)) ⟨c', b⟩ s' := by
  have hI := hX.inv
  have hplain : plainPc x.c.log t → ∀ {sp : Bool},
      x.c.lift (x.c.log.next true tid t (if sp then .spurious else .step)) = .to c' →
      ∃ s', By tid t [] s s' ∧ Seen tid o ⟨c', b⟩ s' := by
    intro hpl sp hs
    unfold CSt.lift at hs
    split at hs
    · rename_i l hl
      cases hs
      cases bufs_plain hbuf (plain_create hpl) (.inl rfl)
      obtain ⟨s', h1, h2⟩ := sim_plain hS hI hin hpl hl
      exact ⟨s', h1, h2⟩
    · cases hs
    · cases hs
  have hno : (∀ e, x.c.log.pc t ≠ .store e) → o ++ storing x t (.log .step) = o := by
    intro h
    simp only [storing]
    split
    · rename_i e _ _ hp _; exact absurd hp (h e)
    · simp
  unfold CSt.step at hs
  split at hs
  case h_1 e hp =>
    rw [hno (by simp [hp])]
    have htc : toCreate (x.c.log.pc t) = none := by rw [hp]; rfl
    split at hs
    · rename_i hc
      cases hs
      cases bufs_plain hbuf htc (.inl rfl)
      have := sim_check hS hI hr hin hp (q := .recheck e) (.inl ⟨hc, rfl⟩)
      exact ⟨_, this.1, this.2⟩
    · rename_i q i hc
      split at hs
      · rename_i hm
        cases hs
        cases bufs_plain hbuf htc (.inl rfl)
        have := sim_check hS hI hr hin hp (.inr ⟨q, i, hc, hm, rfl⟩)
        exact ⟨_, this.1, this.2⟩
      · cases hs
  case h_2 e p hp =>
    rw [hno (by simp [hp])]
    split at hs
    · cases hs
    · rename_i q i hc
      exact sim_giveBack hS hX hr hin (by simp [hp, returning]) (hI.ctl.ptr t p (by simp [hp, Pc.bufPtr])) hc hs hbuf
  case h_3 e p hp =>
    rw [hno (by simp [hp])]
    split at hs
    · cases hs
      have := bufs_begin hbuf rfl rfl
      simp only [enter, Option.map_eq_some_iff] at this
      obtain ⟨b', hg, rfl⟩ := this
      exact ⟨s, .refl, sim_get hS hI hin hp hg⟩
    · cases hs
  case h_4 => cases hs
  case h_5 e hp =>
    split at hs
    · cases hs
    · rename_i q i hc
      split at hs
      · cases hs
        cases bufs_plain hbuf (by rw [hp]; rfl) (.inr ⟨_, by constructor, rfl⟩)
        simp only [storing, hp, hc]
        exact sim_store hS hI hr hin hp hc
      · cases hs
  case h_6 hp =>
    rw [hno (by simp [hp])]
    split at hs
    case h_1 q i p h1 h2 h3 => exact sim_giveBack hS hX hr hin (by simp [hp, returning]) h3 h2 hs hbuf
    case h_2 hx =>
      refine hplain ?_ (sp := false) (by simpa using hs)
      simp only [plainPc, hp]
      rcases hi : (x.c.log.tenant t).initialised with _ | _
      · simp
      · rcases hc : (x.c.log.tenant t).chunk with _ | ⟨b, i⟩
        · simp
        · rcases hb : x.c.log.buffer with _ | p
          · simp
          · exact absurd hb (hx b i p hi hc)
  case h_7 n st hp =>
    rw [hno (by simp [hp])]
    cases hs
    have hne : ((x.c.log.createBuffer n).goto t (.held .startEnable st)).nextBuf ≠ x.c.log.nextBuf := by
      show x.c.log.nextBuf + 1 ≠ _
      omega
    unfold XSt.bufs at hbuf
    rw [if_neg hne, hp] at hbuf
    simp only [toCreate] at hbuf
    split at hbuf
    · cases hbuf
      have := sim_create hS hI hin hp
        (cs := match x.c.log.buffer with | some b => .destroyed b :: x.c.calls | none => x.c.calls)
      exact ⟨_, this.1, this.2⟩
    · cases hbuf
  case h_8 =>
    rw [hno (by assumption)]
    refine hplain ?_ hs
    unfold plainPc
    split <;> simp_all

theorem sim_start (hS : Seen tid o x s) (hI : Custom.Inv x.c) (hin : x.c.inCall t = none) {cfg : TraceConfig}
    (hm : cfg.mode = .fixed ∨ cfg.mode = .ring) {c' : CSt ε} {b : Nat → Buf}
    (hs : x.c.start t cfg = .to c') (hbuf : x.bufs t c' = some b) :
    ∃ s', By tid t [.start cfg] s s' ∧ Seen tid o ⟨c', b⟩ s' := by
  unfold CSt.start at hs
  split at hs
  · rename_i st hp
    have hpc : s.pc t = _ := hS.pc_out hin hp (by sid)
    have hown := owner_me (t := t) hI (by simp [hp, Pc.holdsMutex])
    have hce : core s = core x.c.log := hS.core_eq (t := t) (by simp [hown]) (by simp [hp])
    have htc : toCreate (x.c.log.pc t) = none := by rw [hp]; rfl
    have hc := core_iff.1 hce
    split at hs
    · cases hs
    · rename_i hf
      have hf' : ¬ (True ∧ finishing st ≠ 0) := fun h => hf h.2
      dsimp only at hs
      split at hs <;> rename_i hz
      · cases hs
        cases bufs_plain hbuf htc (.inl rfl)
        refine ⟨{ s with config := cfg, hist := .reject :: .configure cfg :: s.hist }, .one (c := .start cfg) ?_, ?_⟩
        · simp only [St.next, hpc]
          rw [if_neg hf', if_pos hm, if_pos hz]
        · refine hS.note hown (by simp [hp]) (l := { x.c.log with config := cfg, hist := .reject :: .configure cfg :: x.c.log.hist })
            rfl rfl rfl rfl ⟨rfl, hS.enabled, hS.owner, hS.buffer, hS.generation, hS.status, hS.nextBuf, hS.contexts⟩ rfl ?_
            (.inl rfl) rfl rfl rfl rfl
          rw [core_iff]
          simp only [hc, and_self, implies_true, true_and]
          try exact hc.2.2.2.2
      · split at hs <;> rename_i he
        · cases hs
          cases bufs_plain hbuf htc (.inl rfl)
          refine ⟨_, .one (c := .start cfg) ?_, hS.begin (cfg := cfg) (h0 := [.configure cfg]) (sh := false) (full := none)
            (st := .finishStart (cfg.size / sizeofTraceChunk) :: .resumeUser :: st) hI hin hown hce⟩
          simp only [St.next, hpc]
          rw [if_neg hf', if_pos hm, if_neg hz, if_pos (hS.enabled.trans he)]
          rfl
        · cases hs
          cases bufs_plain hbuf htc (.inl rfl)
          refine ⟨_, .one (c := .start cfg) (s' := ({ s with config := cfg, hist := .configure cfg :: s.hist } : St ε).goto t
            (.held (.startCreate (cfg.size / sizeofTraceChunk)) (.resumeUser :: st))) ?_, ?_⟩
          · simp only [St.next, hpc]
            rw [if_neg hf', if_pos hm, if_neg hz, if_neg (by rw [hS.enabled]; exact he)]
          · refine hS.mine (q := .held (.startCreate (cfg.size / sizeofTraceChunk)) (.resumeUser :: st))
              (s1 := { s with config := cfg, hist := .configure cfg :: s.hist })
              (l := { x.c.log with config := cfg, hist := .configure cfg :: x.c.log.hist }) hI hin rfl rfl rfl rfl
              rfl rfl ⟨rfl, hS.enabled, hS.owner, hS.buffer, hS.generation, hS.status, hS.nextBuf, hS.contexts⟩ ?_ hS.lock
              (fun u => .inl ⟨rfl, rfl⟩) (fun u hu => by rw [hown] at hu; cases hu; rfl) (by sid) (.inl rfl) rfl rfl rfl rfl
            rw [core_iff]
            simp only [hc, and_self, implies_true, true_and]
            try exact hc.2.2.2.2
  · cases hs

theorem sim_moveOut (hS : Seen tid o x s) (hI : Custom.Inv x.c) (hin : x.c.inCall t = none) {a : Choice ε}
    (ha : a = .getBuffer ∨ a = .getTraceContext) {c' : CSt ε} {b : Nat → Buf}
    (hs : x.c.moveOut (x.c.log.next true tid t a) = .to c') (hbuf : x.bufs t c' = some b) :
    ∃ s', By tid t [a] s s' ∧ Seen tid o ⟨c', b⟩ s' := by
  unfold CSt.moveOut at hs
  split at hs
  case h_2 => cases hs
  case h_3 => cases hs
  case h_1 l hl =>
    cases hs
    have hq : ∀ {cs : List Call}, (cs = match x.c.log.enabled, x.c.log.buffer with
        | false, some b => .handed b :: x.c.calls | _, _ => x.c.calls) →
        cs = x.c.calls ∨ ∃ y, quietCall y ∧ cs = y :: x.c.calls := by
      intro cs h
      split at h
      · exact .inr ⟨_, by constructor, h⟩
      · exact .inl h
    have main : ∃ st, x.c.log.pc t = .held .user st ∧ ∃ s', By tid t [a] s s' ∧ Seen tid o (x.at l) s' := by
      have one : ∀ {st}, x.c.log.pc t = .held .user st → s.pc t = .held .user st ∧ x.c.log.owner = some t ∧
          core s = core x.c.log := by
        intro st hp
        have hown := owner_me (t := t) hI (by simp [hp, Pc.holdsMutex])
        exact ⟨hS.pc_out hin hp (by sid), hown, hS.core_eq (t := t) (by simp [hown]) (by simp [hp])⟩
      have hst : (fun b => if s.buffer = some b then Status.handed else s.status b) =
          fun b => if x.c.log.buffer = some b then Status.handed else x.c.log.status b := by
        rw [hS.buffer, hS.status]
      rcases ha with rfl | rfl <;> simp only [St.next] at hl
      all_goals
        split at hl
        · rename_i st hp
          refine ⟨st, hp, ?_⟩
          obtain ⟨hpc, hown, hce⟩ := one hp
          have hc := core_iff.1 hce
          split at hl <;> rename_i he
          · cases hl
            refine ⟨{ s with hist := .refuse :: s.hist }, ?_, ?_⟩
            · first | refine .one (c := .getBuffer) ?_ rfl | refine .one (c := .getTraceContext) ?_ rfl
              simp only [St.next, hpc, hS.enabled, he, if_true]
            · refine hS.note hown (by simp [hp]) (l := { x.c.log with hist := .refuse :: x.c.log.hist })
                rfl rfl rfl rfl ⟨hS.config, hS.enabled, hS.owner, hS.buffer, hS.generation, hS.status, hS.nextBuf, hS.contexts⟩ rfl ?_
                (.inl rfl) rfl rfl rfl rfl
              rw [core_iff]
              simp only [hc, and_self, implies_true, true_and]
              try exact hc.2.2.2.2
          · cases hl
            first
              | refine ⟨{ s.retrieve with contexts := (s.buffer, s.names) :: s.contexts }, .one (c := .getTraceContext)
                  (by simp only [St.next, hpc, hS.enabled, he]; simp), ?_⟩
                refine hS.note hown (by simp [hp]) (l := { x.c.log.retrieve with contexts := (x.c.log.buffer, x.c.log.names) :: x.c.log.contexts })
                  rfl rfl rfl rfl ⟨hS.config, hS.enabled, hS.owner, rfl, hS.generation, hst, hS.nextBuf,
                    by simp only [hS.buffer, hc, hS.contexts]⟩ rfl ?_
                  (.inr rfl) rfl rfl rfl rfl
                rw [core_iff]
                simp only [St.retrieve, hS.buffer, hc, and_self, implies_true, true_and]
                try exact hc.2.2.2.2
              | refine ⟨s.retrieve, .one (c := .getBuffer) (by simp only [St.next, hpc, hS.enabled, he]; simp), ?_⟩
                refine hS.note hown (by simp [hp]) (l := x.c.log.retrieve)
                  rfl rfl rfl rfl ⟨hS.config, hS.enabled, hS.owner, rfl, hS.generation, hst, hS.nextBuf, hS.contexts⟩ rfl ?_
                  (.inr rfl) rfl rfl rfl rfl
                rw [core_iff]
                simp only [St.retrieve, hS.buffer, hc, and_self, implies_true, true_and]
                try exact hc.2.2.2.2
        · cases hl
    obtain ⟨st, hp, s', h1, h2⟩ := main
    cases bufs_plain hbuf (by rw [hp]; rfl) (hq rfl)
    exact ⟨s', h1, h2.calls rfl rfl rfl⟩

theorem sim_free (hS : Seen tid o x s) {b0 : Nat} {l : St ε}
    (hs : x.c.log.next true tid t (.free b0) = .to l) : ∃ s', By tid t [.free b0] s s' ∧ Seen tid o (x.at l) s' ∧ l.nextBuf = x.c.log.nextBuf := by
  simp only [St.next] at hs
  split at hs
  · rename_i h
    cases hs
    refine ⟨{ s with status := setf s.status b0 .freed }, .one (c := .free b0) (by simp [St.next, hS.status, h]), ?_, rfl⟩
    exact ⟨hS.config, hS.enabled, hS.owner, hS.buffer, hS.generation, by show setf s.status _ _ = _; rw [hS.status]; rfl, hS.nextBuf,
      hS.contexts, hS.core, hS.lock, hS.chunk, hS.pc, hS.bufs, hS.count, hS.stored, hS.born⟩
  · cases hs

theorem sim_stats (hS : Seen tid o x s) (hin : x.c.inCall t = none) {c' : CSt ε} {b : Nat → Buf}
    (hs : x.c.stats t = .to c') (hbuf : x.bufs t c' = some b) : Seen tid o ⟨c', b⟩ s := by
  unfold CSt.stats at hs
  split at hs
  · rename_i st hp
    split at hs
    · rename_i p hb
      rw [if_pos hin] at hs
      · split at hs
        · cases hs
          cases bufs_plain hbuf (by rw [hp]; rfl) (.inr ⟨_, by constructor, rfl⟩)
          have hk : seenChunk ⟨{ x.c with inCall := setf x.c.inCall t (some p), calls := .statsBegin t p :: x.c.calls }, x.buf⟩ t =
              seenChunk x t := by
            rw [seenChunk_out hin]
            simp [seenChunk, hp, kind]
          refine hS.stutter (t := t) ⟨fun u hu => setf_ne _ _ hu, fun _ _ => rfl, fun _ _ => rfl, fun _ _ _ _ => ⟨rfl, rfl⟩⟩
            hS.eqs (fun _ => rfl) ?_ hk (.inl rfl) rfl (fun _ _ _ h => h) (fun _ _ _ => rfl) (fun _ _ _ _ _ => rfl)
          rw [seenPc, seenPc, hk]
          show seePc (x.c.log.pc t) _ _ = seePc (x.c.log.pc t) _ _
          rw [hp]; rfl
        · cases hs
    · cases hs
  · cases hs

/-- Every step is one of the log of atomic buffers, or up to two of them. -/
theorem sim_next (hS : Seen tid o x s) (hX : XInv tid x) (hr : TLog.Reachable true tid s) {a : XAct ε} (ha : BuiltIn a)
    (hs : x.next tid t a = .to x') : ∃ s', By tid t (begun a) s s' ∧ Seen tid (o ++ storing x t a) x' s' := by
  have hI := hX.inv
  cases a with
  | access sp =>
    simp only [XSt.next] at hs
    split at hs
    · rename_i p hp
      simpa [storing, begun] using sim_access hS hX hr hp hs
    · cases hs
  | stats =>
    simp only [XSt.next] at hs
    split at hs <;> rename_i hin
    · unfold XSt.logged at hs
      split at hs
      · rename_i c' hc
        split at hs
        · rename_i b hb
          cases hs
          exact ⟨s, .refl, by simpa [storing] using sim_stats hS hin hc hb⟩
        · cases hs
      · cases hs
      · cases hs
    · cases hs
  | log c =>
    simp only [XSt.next] at hs
    split at hs <;> rename_i hin
    · unfold XSt.logged at hs
      split at hs
      · rename_i c' hc
        split at hs
        · rename_i b hb
          cases hs
          have hlift : plainChoice c = true → toCreate (x.c.log.pc t) = none →
              x.c.lift (x.c.log.next true tid t c) = .to c' → storing x t (.log c) = [] →
              ∃ s', By tid t [c] s s' ∧ Seen tid (o ++ storing x t (.log c)) ⟨c', b⟩ s' := by
            intro hpl htc hc h0
            rw [h0, List.append_nil]
            unfold CSt.lift at hc
            split at hc
            · rename_i l hl
              cases hc
              cases bufs_plain hb htc (.inl rfl)
              exact sim_choice hS hI hin hpl hl
            · cases hc
            · cases hc
          have hidle : x.c.log.isIdle t = true → toCreate (x.c.log.pc t) = none := fun h => by rw [isIdle_pc h]; rfl
          have huser : ∀ {st}, x.c.log.pc t = .held .user st → toCreate (x.c.log.pc t) = none := fun h => by rw [h]; rfl
          cases c <;> simp only [CSt.next, hin] at hc
          case step => exact sim_step hS hX hr hin hc hb
          case spurious => exact sim_step hS hX hr hin hc hb
          case start cfg => simpa [storing, begun, inner] using sim_start hS hI hin ha hc hb
          case free b0 =>
            split at hc
            · rename_i l hl
              cases hc
              obtain ⟨s', h1, h2, h3⟩ := sim_free hS hl
              cases bufs_same hb h3 (.inr ⟨_, by constructor, rfl⟩)
              refine ⟨s', h1, ?_⟩
              simpa [storing] using (h2.calls rfl rfl rfl : Seen tid o ⟨{ x.c with log := l, calls := .destroyed b0 :: x.c.calls }, x.buf⟩ s')
            · cases hc
            · cases hc
          case getBuffer => simpa [storing, begun, inner] using sim_moveOut hS hI hin (.inl rfl) hc hb
          case getTraceContext => simpa [storing, begun, inner] using sim_moveOut hS hI hin (.inr rfl) hc hb
          all_goals
            refine hlift rfl ?_ hc rfl
            unfold CSt.lift at hc
            split at hc
            · rename_i l hl
              simp only [St.next] at hl
              split at hl
              · rename_i h
                first | exact hidle h | exact hidle h.1 | exact huser h
              · cases hl
            · cases hc
            · cases hc
        · cases hs
      · cases hs
      · cases hs
    · cases hs

theorem seen_init : Seen tid ([] : List (Nat × Nat × ε)) XSt.init St.init :=
  ⟨rfl, rfl, rfl, rfl, rfl, rfl, rfl, rfl, rfl, fun _ => rfl, fun _ => rfl, fun _ => rfl, fun _ h => (by cases h),
    fun _ _ _ _ h => (by cases h), fun _ _ => rfl, fun _ h => (by cases h)⟩

theorem run_split {l l' : List (Nat × Choice ε)} {s1 s2 : St ε} (h : s.run true tid l = .to s1) (h' : s1.run true tid l' = .to s2) :
    s.run true tid (l ++ l') = .to s2 := by
  induction l generalizing s with
  | nil => cases h; exact h'
  | cons a l ih =>
    obtain ⟨t, c⟩ := a
    simp only [St.run, List.cons_append] at h ⊢
    split at h
    · exact ih h
    · cases h
    · cases h

/-- An execution over the code of the buffers is one of the log of atomic buffers: the threads begin the
same functions in the same order, and store the same events in the same order. -/
theorem sim_run (hS : Seen tid o x s) (hX : XInv tid x) (hr : TLog.Reachable true tid s) {L : List (Nat × XAct ε)}
    (hb : ∀ y ∈ L, BuiltIn y.2) (hL : x.run tid L = .to x') :
    ∃ l s', s.run true tid l = .to s' ∧ begins l = beginsX L ∧ l.length ≤ 2 * L.length ∧
      Seen tid (o ++ stores tid x L) x' s' := by
  induction L generalizing x s o with
  | nil => cases hL; exact ⟨[], s, rfl, rfl, by simp, by simpa [stores] using hS⟩
  | cons y L ih =>
    obtain ⟨t, a⟩ := y
    simp only [XSt.run] at hL
    split at hL
    · rename_i x1 h1
      obtain ⟨s1, ⟨k, hk1, hk2, hk3⟩, hS1⟩ := sim_next hS hX hr (hb (t, a) (by simp)) h1
      obtain ⟨l, s', g1, g2, g3, g4⟩ := ih hS1 (hX.next h1) (reachable_run hr hk3) (fun y hy => hb y (by simp [hy])) hL
      refine ⟨k.map (fun c => (t, c)) ++ l, s', run_split hk3 g1, ?_, ?_, ?_⟩
      · simp only [begins, beginsX, List.filter_append, List.flatMap_cons] at g2 ⊢
        rw [g2, ← hk2]
        congr 1
        rw [List.filter_map]
        rfl
      · simp; omega
      · simp only [stores, h1]
        rwa [List.append_assoc] at g4
    · cases hL
    · cases hL

end Phosphor.LogBuf
