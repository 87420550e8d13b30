import Verif.Proof.LogBufferRefineAccess
/-
Every step of the log over the code of its buffers is at most two steps of Model/TraceLog.
-/
namespace Phosphor.LogBuf
open TLog Custom
variable {ε : Type} {tid : Nat → Nat} {o o' : List (Nat × Nat × ε)} {x x' : XSt ε} {s s' : St ε} {t p : Nat}

/-- What is on loan and the history of the calls are not seen. -/
theorem Seen.calls {c' : CSt ε} {l : St ε} (h : Seen tid o (x.at l) s) (h1 : c'.log = l) (h2 : c'.count = x.c.count)
    (h3 : c'.inCall = x.c.inCall) : Seen tid o ⟨c', x.buf⟩ s := by
  obtain ⟨l', lent, count, inCall, calls⟩ := c'
  dsimp only at h1 h2 h3
  subst h1 h2 h3
  exact ⟨h.1, h.2, h.3, h.4, h.5, h.6, h.7, h.8, h.9, h.10, h.11, h.12, h.13, h.14, h.15, h.16⟩

theorem next_sp (s : St ε) (sp : Bool) : s.next true tid t (if sp then .spurious else .step) =
    match s.logStep tid t sp with
    | .blocked => s.heldStep tid t sp
    | o => o := by cases sp <;> rfl

theorem bufs_same {c' : CSt ε} {b : Nat → Buf} (hb : x.bufs t c' = some b) (h1 : c'.log.nextBuf = x.c.log.nextBuf)
    (h2 : c'.calls = x.c.calls ∨ ∃ y, quietCall y ∧ c'.calls = y :: x.c.calls) : b = x.buf := by
  unfold XSt.bufs at hb
  rw [if_pos h1, enter_quiet h2] at hb
  cases hb; rfl

/-- The steps that do not touch the buffer. -/
theorem sim_plain (hS : Seen tid o x s) (hI : Custom.Inv x.c) (hin : x.c.inCall t = none) {sp : Bool} {l : St ε}
    (hp : plainPc x.c.log t) (hs : x.c.log.next true tid t (if sp then .spurious else .step) = .to l) :
    ∃ s', By tid t [] s s' ∧ Seen tid o (x.at l) s' := by
  by_cases hd : x.c.log.pc t = .deregBody
  · have hno : (x.c.log.tenant t).chunk = none := by
      cases hc : (x.c.log.tenant t).chunk with
      | none => rfl
      | some bi =>
        obtain ⟨b, i⟩ := bi
        have h1 := hI.ctl.chunkInit t (by simp [hc])
        have h2 := hI.ctl.chunkBuf t b i hc
        simp [plainPc, hd, hc, h1, h2] at hp
    have hown : x.c.log.owner = some t := owner_me hI (by simp [hd, Pc.holdsMutex])
    rw [next_sp] at hs
    simp only [St.logStep, hd, St.heldStep] at hs
    cases hdb : x.c.log.deregisterBody tid t with
    | none => rw [hdb] at hs; cases hs
    | some l1 =>
      rw [hdb] at hs
      cases hs
      have D := deregisterBody_spec hdb
      have hsc : seenChunk x t = none := by rw [seenChunk_out hin, hno]
      have hpc : s.pc t = .release := by rw [hS.pc, seenPc, hd, hsc]; rfl
      have E := D.eqs
      have hch : ∀ u, (l1.tenant u).chunk = (x.c.log.tenant u).chunk := by
        intro u
        by_cases hu : u = t
        · subst hu; rw [D.mine, hno]; split <;> rfl
        · exact D.other u hu
      refine ⟨s, .refl, hS.upd (x' := x.at (l1.goto t .release)) (s' := s) (q := .release) hI hin rfl rfl rfl ?_ hpc (fun _ _ => rfl)
        rfl ?_ (fun u => ?_) (fun u => .inl ⟨hch u, rfl⟩) (fun _ hpu => ?_) (.inl E.buffer) rfl rfl rfl E.nextBuf⟩
      · show setf l1.pc t .release = _
        rw [D.pc]
      · exact ⟨hS.config.trans E.1.symm, hS.enabled.trans E.2.symm, hS.owner.trans E.3.symm, hS.buffer.trans E.4.symm,
          hS.generation.trans E.5.symm, hS.status.trans E.6.symm, hS.nextBuf.trans E.7.symm, hS.contexts.trans E.8.symm⟩
      · rw [hS.lock]; exact (D.lock u).symm
      · rw [hS.core, seenCore_none (x := x.at (l1.goto t .release))]
        · have h1 : leaving x = some t := by simp [leaving, hown, hd, hsc]
          have h2 : core (x.at (l1.goto t .release)).c.log = core l1 := rfl
          rw [h2, D.core]
          simp [seenCore, h1]
        · intro u hu
          have hu' : l1.owner = some u := hu
          rw [E.owner, hown] at hu'
          cases hu'
          simp [XSt.at, St.goto]
  · rw [next_sp] at hs
    cases hl : x.c.log.logStep tid t sp with
    | «to» l1 =>
      rw [hl] at hs
      cases hs
      obtain ⟨s', h1, h2⟩ := sim_logStep hS hI hin hp hl
      exact ⟨s', .one (c := if sp then .spurious else .step) (by rw [next_sp, h1]) (by cases sp <;> rfl), h2⟩
    | ub => rw [hl] at hs; cases hs
    | blocked =>
      rw [hl] at hs
      obtain ⟨s', h1, h2, h3⟩ := sim_heldStep hS hI hin hp hd hs
      exact ⟨s', .one (c := if sp then .spurious else .step) (by rw [next_sp, h1]; exact h2) (by cases sp <;> rfl), h3⟩

/-- `isFull` says the same. -/
theorem Seen.full (hS : Seen tid o x s) (hI : Custom.Inv x.c) (hr : TLog.Reachable true tid s) (hin : x.c.inCall t = none)
    {b i : Nat} (hc : (x.c.log.tenant t).chunk = some (b, i)) :
    ∃ c, (s.heap b).chunkAt i = .ok c ∧ (c.isFull = true ↔ x.c.count b i = chunkSize) := by
  have hsc : seenChunk x t = some (b, i) := by rw [seenChunk_out hin, hc]
  obtain ⟨evs, he⟩ := hr.data.owns t b i (by rw [hS.chunk, hsc])
  obtain ⟨c, h1, _, h2⟩ := (hr.data.bufs b).chunkAt he
  refine ⟨c, by simp [Buffer.chunkAt, h1], ?_⟩
  rw [Chunk.isFull_iff c evs h2, hS.count t b i evs hsc he, events_of (fun e p => notWait hI hin)]

theorem sim_check (hS : Seen tid o x s) (hI : Custom.Inv x.c) (hr : TLog.Reachable true tid s) (hin : x.c.inCall t = none)
    {e : ε} (hp : x.c.log.pc t = .checkChunk e) {q : Pc ε}
    (hq : (x.c.log.tenant t).chunk = none ∧ q = .recheck e ∨ ∃ b i, (x.c.log.tenant t).chunk = some (b, i) ∧
      x.c.log.mapped b = true ∧ q = if x.c.count b i = chunkSize then .recheck e else .store e) :
    By tid t [] s (s.goto t q) ∧ Seen tid o (x.at (x.c.log.goto t q)) (s.goto t q) := by
  have hpc : s.pc t = _ := hS.pc_out hin hp (by sid)
  rcases hq with ⟨hc, rfl⟩ | ⟨b, i, hc, hm, rfl⟩
  · refine ⟨.one (c := .step) (by simp [St.next, St.logStep, hpc, hS.chunk_out hin, hc]), ?_⟩
    exact hS.goto hI hin (by simp [hp]) (by sid) (by simp)
  · obtain ⟨c, h1, h2⟩ := hS.full hI hr hin hc
    refine ⟨.one (c := .step) ?_, ?_⟩
    · simp only [St.next, St.logStep, hpc, hS.chunk_out hin, hc, hS.mapped, hm, h1, if_true]
      simp only [h2]
    · exact hS.goto hI hin (by simp [hp]) (by split <;> sid) (by split <;> simp)

theorem sim_get (hS : Seen tid o x s) (hI : Custom.Inv x.c) (hin : x.c.inCall t = none)
    {e : ε} (hp : x.c.log.pc t = .getDo e p) {b' : Buf} (hg : (x.buf p).get t = some b') {cs : List Call} :
    Seen tid o ⟨{ x.c with log := x.c.log.goto t (.getWait e p), inCall := setf x.c.inCall t (some p), calls := cs },
      setf x.buf p b'⟩ s := by
  obtain ⟨ho, hh, hw, hB⟩ := buf_get (ε := ε) hg
  have hb := hI.ctl.ptr t p (by simp [hp, Pc.bufPtr])
  have hno : (x.c.log.tenant t).chunk = none := hI.ctl.noChunk t (by simp [hp, Pc.noChunk])
  have hin' : (setf x.c.inCall t (some p)) t = some p := setf_self ..
  have hsc' : seenChunk (⟨{ x.c with log := x.c.log.goto t (.getWait e p), inCall := setf x.c.inCall t (some p), calls := cs },
      setf x.buf p b'⟩ : XSt ε) t = none := by
    rw [seenChunk_in hin' (by simp [St.goto, kind])]
    simp [hh]
  refine hS.stutter (t := t) ?_ ?_ (fun _ => rfl) ?_ ?_ (.inr ⟨by simp [hp], by simp [St.goto]⟩) rfl (fun q B hq hB' => ?_)
    (fun q j h1 => ?_) (fun _ _ _ _ _ => rfl)
  · refine ⟨fun u hu => setf_ne _ _ hu, fun u hu => setf_ne _ _ hu, fun _ _ => rfl, fun u hu q _ => ?_⟩
    by_cases hq : q = p
    · subst hq; simpa using ho u hu
    · simp only [setf_ne _ _ hq, and_self]
  · exact ⟨hS.config, hS.enabled, hS.owner, hS.buffer, hS.generation, hS.status, hS.nextBuf, hS.contexts⟩
  · rw [seenPc, hsc', seenPc, seenWait_in hin', hp]
    simp [St.goto, seePc, hw]
  · rw [hsc', seenChunk_out hin, hno]
  · have : q = p := by
      have : some q = some p := (show x.c.log.buffer = some q from hq).symm.trans hb
      cases this; rfl
    subst this
    simpa using hB B hB'
  · rw [seenChunk_out hin, hno] at h1; cases h1

/-- `returnChunk` begins. -/
theorem sim_ret (hS : Seen tid o x s) (hX : XInv tid x) (hr : TLog.Reachable true tid s) (hin : x.c.inCall t = none)
    (hret : returning (x.c.log.pc t) = true) (hb : x.c.log.buffer = some p) {i : Nat} (hc : (x.c.log.tenant t).chunk = some (p, i))
    {b' : Buf} (hg : (x.buf p).ret t i = some b') {cs : List Call} {lent : Nat → Nat → Bool} :
    ∃ s', By tid t [] s s' ∧
      Seen tid o ⟨{ x.c with lent := lent, inCall := setf x.c.inCall t (some p), calls := cs }, setf x.buf p b'⟩ s' := by
  have hI := hX.inv
  have L := hX.link p hb
  obtain ⟨ho, hw, hh⟩ := buf_ret (ε := ε) L.good hg
  have hin' : (setf x.c.inCall t (some p)) t = some p := setf_self ..
  have hmap : s.mapped p = true := by rw [hS.mapped]; exact mapped_buffer hI.ctl hb
  have hsc : seenChunk x t = some (p, i) := by rw [seenChunk_out hin, hc]
  have N : Near x t p ⟨{ x.c with lent := lent, inCall := setf x.c.inCall t (some p), calls := cs }, setf x.buf p b'⟩ :=
    ⟨rfl, rfl, hin', fun u hu => setf_ne _ _ hu, fun q hq => setf_ne _ _ hq, by simpa using ho⟩
  have hk : kind (x.c.log.pc t) ≠ .out := by
    cases hp : x.c.log.pc t <;> simp [hp, returning] at hret <;> simp [kind]
  rcases hh with ⟨hh, hB⟩ | ⟨hh, hB⟩
  · refine ⟨s, .refl, N.stutter hS hb ?_ ?_ (by simpa using hB)⟩
    · rw [seenChunk_in N.me hk, hsc]; simp [hh]
    · rw [seenWait_in N.me, seenWait_out hin]; simp [hw]
  · have hB' := hB _ (hS.bufs p hb)
    have hpc := hS.pc t
    rw [seenPc, hsc] at hpc
    cases hp : x.c.log.pc t with
    | retDo e q =>
      rw [hp] at hpc
      have hq : q = p := by
        have := hI.ctl.ptr t q (by simp [hp, Pc.bufPtr])
        rw [hb] at this; cases this; rfl
      subst hq
      refine ⟨_, .one (c := .step) ?_, N.returned hS hb hp (by simpa using hh) (B := (s.heap q).returnChunk i) (by simpa using hB')⟩
      simp [St.next, St.logStep, hpc, seePc, hmap, hS.chunk, hsc]
    | deregBody =>
      exact N.deregistered hS hI hb hp hsc (by simpa using hh) (hI.ctl.chunkInit t (by simp [hc])) (by simpa using hB') hr
    | _ => simp [hp, returning] at hret

theorem init_seen (cfg : TraceConfig) (g n : Nat) : BufSeen (Buf.init cfg n) (makeBuffer cfg g n : Buffer ε) := by
  unfold Buf.init makeBuffer
  cases cfg.mode
  all_goals first
    | exact ⟨rfl, rfl, by simp [Buffer.makeRing, Buffer.size, RingConc.St.init], rfl⟩
    | exact ⟨rfl, rfl, by simp [Buffer.makeFixed, Buffer.size, FSt.init]⟩

theorem eventsIn_none {b : Nat} (h : ∀ y ∈ o, y.1 < b) (v : Nat) : eventsIn o b v = [] := by
  unfold eventsIn
  have : o.filter (fun y => decide (y.1 = b ∧ y.2.1 = v)) = [] := by
    rw [List.filter_eq_nil_iff]
    intro y hy hd
    have := h y hy
    simp at hd
    omega
  rw [this]; rfl

theorem sim_create (hS : Seen tid o x s) (hI : Custom.Inv x.c) (hin : x.c.inCall t = none) {n : Nat} {st : List Frame}
    (hp : x.c.log.pc t = .held (.startCreate n) st) {cs : List Call} :
    By tid t [] s ((s.createBuffer n).goto t (.held .startEnable st)) ∧
    Seen tid o ⟨{ x.c with log := (x.c.log.createBuffer n).goto t (.held .startEnable st), calls := cs },
      setf x.buf x.c.log.nextBuf (Buf.init x.c.log.config n)⟩ ((s.createBuffer n).goto t (.held .startEnable st)) := by
  have hpc : s.pc t = _ := hS.pc_out hin hp (by sid)
  refine ⟨.one (c := .step) (by simp [St.next, St.logStep, St.heldStep, hpc]), ?_⟩
  have hlt : ∀ q, x.c.log.buffer = some q → q ≠ x.c.log.nextBuf := fun q hq => by
    have := hI.ctl.last q hq; omega
  have A : Apart x t ⟨{ x.c with log := (x.c.log.createBuffer n).goto t (.held .startEnable st), calls := cs },
      setf x.buf x.c.log.nextBuf (Buf.init x.c.log.config n)⟩ := by
    refine ⟨fun _ _ => rfl, fun u hu => setf_ne _ _ hu, fun _ _ => rfl, fun u hu q hq => ?_⟩
    have := hlt q (hI.inside u q hq).2
    simp only [setf_ne _ _ this, and_self]
  have hsc : ∀ u q j, seenChunk x u = some (q, j) → q ≠ x.c.log.nextBuf := by
    intro u q j h
    apply hlt
    unfold seenChunk at h
    split at h
    · exact hI.ctl.chunkBuf u q j h
    · rename_i q' hq'
      split at h
      · exact hI.ctl.chunkBuf u q j h
      · cases hh : (x.buf q').hand u with
        | none => rw [hh] at h; cases h
        | some k => rw [hh] at h; cases h; exact (hI.inside u _ hq').2
  have hcont : ∀ q, q ≠ x.c.log.nextBuf → ((s.createBuffer n).goto t (.held .startEnable st)).contents q = s.contents q := by
    intro q hq
    simp only [St.createBuffer, St.goto, hS.nextBuf, setf_ne _ _ hq]
  refine hS.inner (t := t) A ?_ hS.lock (fun u hu => setf_ne _ _ hu) (fun _ _ => rfl) ?_ ?_ ?_ (fun q hq => ?_)
    (fun q j evs h1 h2 => ?_) (fun u hu q j evs h1 h2 => ?_) (fun _ _ _ _ _ => rfl) (fun b v => ?_) (fun y hy => ?_)
  · have hst : ((s.createBuffer n).goto t (.held .startEnable st)).status =
        ((x.c.log.createBuffer n).goto t (.held .startEnable st)).status := by
      simp [St.createBuffer, St.goto, hS.status, hS.buffer, hS.nextBuf]
    refine ⟨hS.config, hS.enabled, hS.owner, ?_, ?_, hst, ?_, hS.contexts⟩
    · simp [St.createBuffer, St.goto, hS.nextBuf]
    · simp [St.createBuffer, St.goto, hS.generation]
    · simp [St.createBuffer, St.goto, hS.nextBuf]
  · simp [seenPc, St.goto, seePc]
  · rw [seenChunk_out (by exact hin)]
    show (s.tenant t).chunk = (x.c.log.tenant t).chunk
    rw [hS.chunk_out hin]
  · show core s = _
    rw [hS.core]
    symm
    exact seenCore_keep (t := t) (x := x) rfl A.pcs (fun u hu => A.chunk hu) (by simp [hp]) (by simp [St.goto]) rfl rfl
  · have : q = x.c.log.nextBuf := by
      have : some x.c.log.nextBuf = some q := hq
      cases this; rfl
    subst this
    simp only [St.createBuffer, St.goto, hS.nextBuf, setf_self, hS.config]
    exact init_seen _ _ _
  · rw [seenChunk_out (by exact hin)] at h1
    have h1' : seenChunk x t = some (q, j) := by rw [seenChunk_out hin]; exact h1
    rw [hcont q (hsc t q j h1')] at h2
    rw [hS.count t q j evs h1' h2, events_of (fun e p => notWait hI hin), events_of (by simp [St.goto])]
  · rwa [hcont q (hsc u q j h1)] at h2
  · by_cases hb : b = x.c.log.nextBuf
    · subst hb
      simp only [St.createBuffer, St.goto, hS.nextBuf, setf_self]
      exact (eventsIn_none hS.born v).symm
    · simp only [St.createBuffer, St.goto, hS.nextBuf, setf_ne _ _ hb]
      exact hS.stored b v
  · have := hS.born y hy
    show y.1 < x.c.log.nextBuf + 1
    omega

theorem bufSeen_shape {b : Buf} {B B' : Buffer ε} (h : BufSeen b B) (h1 : B'.mode = B.mode) (h2 : B'.counter = B.counter)
    (h3 : B'.size = B.size) (h4 : B'.queue = B.queue) : BufSeen b B' := by
  cases b with
  | fixed f => exact ⟨h1.trans h.1, h2.trans h.2.1, h3.trans h.2.2⟩
  | ring r => exact ⟨h1.trans h.1, h2.trans h.2.1, h3.trans h.2.2.1, h4.trans h.2.2.2⟩

theorem pushAt_shape {B B' : Buffer ε} {i : Nat} {e : ε} {r : Res Unit} (h : B.pushAt i e = (B', r)) :
    B'.mode = B.mode ∧ B'.counter = B.counter ∧ B'.size = B.size ∧ B'.queue = B.queue := by
  unfold Buffer.pushAt at h
  split at h <;> cases h
  · exact ⟨rfl, rfl, by simp [Buffer.size], rfl⟩
  · exact ⟨rfl, rfl, rfl, rfl⟩

theorem sim_store (hS : Seen tid o x s) (hI : Custom.Inv x.c) (hr : TLog.Reachable true tid s) (hin : x.c.inCall t = none)
    {e : ε} (hp : x.c.log.pc t = .store e) {b i : Nat} (hc : (x.c.log.tenant t).chunk = some (b, i)) {cs : List Call} :
    ∃ s', By tid t [] s s' ∧ Seen tid (o ++ [(b, t, e)])
      ⟨{ x.c with log := x.c.log.goto t .unlock, count := set2 x.c.count b i (x.c.count b i + 1), calls := cs }, x.buf⟩ s' := by
  have hpc : s.pc t = _ := hS.pc_out hin hp (by sid)
  have hsc : seenChunk x t = some (b, i) := by rw [seenChunk_out hin, hc]
  have hcs : (s.tenant t).chunk = some (b, i) := by rw [hS.chunk, hsc]
  have hbuf : x.c.log.buffer = some b := hI.ctl.chunkBuf t b i hc
  have hmap : s.mapped b = true := by rw [hS.mapped]; exact mapped_buffer hI.ctl hbuf
  have hns : s.next true tid t .step ≠ .ub := hr.inv.next_safe
  simp only [St.next, St.logStep, hpc, hcs, hmap, if_true] at hns
  obtain ⟨evs, he⟩ := hr.data.owns t b i hcs
  cases hpu : (s.heap b).pushAt i e with
  | mk B r =>
    rw [hpu] at hns
    cases r with
    | throw _ => exact absurd rfl hns
    | ub => exact absurd rfl hns
    | ok u =>
      cases u
      obtain ⟨g1, g2, g3, g4⟩ := pushAt_shape hpu
      refine ⟨((s.setBuf b B).recorded t b i e).goto t .unlock, .one (c := .step) (by simp [St.next, St.logStep, hpc, hcs, hmap, hpu]), ?_⟩
      have A : Apart x t ⟨{ x.c with log := x.c.log.goto t .unlock, count := set2 x.c.count b i (x.c.count b i + 1), calls := cs }, x.buf⟩ :=
        ⟨fun _ _ => rfl, fun u hu => setf_ne _ _ hu, fun _ _ => rfl, fun _ _ _ _ => ⟨rfl, rfl⟩⟩
      have hcon : ∀ q, ((((s.setBuf b B).recorded t b i e).goto t .unlock).contents q) =
          setf s.contents b ((s.contents b).modify i (fun p => (p.1, p.2 ++ [e]))) q := fun _ => rfl
      refine hS.inner (t := t) A ?_ hS.lock (fun u hu => setf_ne _ _ hu) (fun _ _ => rfl) ?_ ?_ ?_ (fun q hq => ?_)
        (fun q j evs h1 h2 => ?_) (fun u hu q j evs h1 h2 => ?_) (fun u hu q j h1 => ?_) (fun b' v => ?_) (fun y hy => ?_)
      · exact ⟨hS.config, hS.enabled, hS.owner, hS.buffer, hS.generation, hS.status, hS.nextBuf, hS.contexts⟩
      · simp [seenPc, St.goto, seePc]
      · rw [seenChunk_out (by exact hin)]
        show (s.tenant t).chunk = (x.c.log.tenant t).chunk
        rw [hS.chunk_out hin]
      · show core s = _
        rw [hS.core]
        symm
        exact seenCore_keep (t := t) (x := x) rfl A.pcs (fun u hu => A.chunk hu) (by simp [hp]) (by simp [St.goto]) rfl rfl
      · have : q = b := by
          have : some q = some b := (show x.c.log.buffer = some q from hq).symm.trans hbuf
          cases this; rfl
        subst this
        show BufSeen (x.buf q) (setf s.heap q B q)
        rw [setf_self]
        exact bufSeen_shape (hS.bufs q hbuf) g1 g2 g3 g4
      · rw [seenChunk_out (by exact hin)] at h1
        have h1' : (x.c.log.tenant t).chunk = some (q, j) := h1
        rw [hc] at h1'
        cases h1'
        rw [hcon, setf_self, List.getElem?_modify, he] at h2
        simp at h2
        have h3 := hS.count t b i _ hsc he
        rw [events_of (by simp [hp])] at h3
        rw [events_of (by simp [St.goto]), ← h2]
        simp [set2, h3]
      · rw [hcon] at h2
        by_cases hq : q = b
        · subst hq
          rw [setf_self, List.getElem?_modify] at h2
          by_cases hj : i = j
          · subst hj
            rw [he] at h2
            simp at h2
            exact absurd h2.1.symm hu
          · simpa [hj] using h2
        · rwa [setf_ne _ _ hq] at h2
      · have hne : ¬ (q = b ∧ j = i) := by
          rintro ⟨rfl, rfl⟩
          exact hu (C44_exclusive hr (by rw [hS.chunk, h1]) hcs)
        by_cases hq : q = b
        · subst hq
          have hj : j ≠ i := fun e => hne ⟨rfl, e⟩
          simp [set2, setf_ne _ _ hj]
        · simp [set2, setf_ne _ _ hq]
      · show setf s.stored b (setf (s.stored b) t (s.stored b t ++ [e])) b' v = _
        have e1 : eventsIn (o ++ [(b, t, e)]) b' v = eventsIn o b' v ++ if b = b' ∧ t = v then [e] else [] := by
          simp only [eventsIn, List.filter_append, List.map_append, List.filter_cons, List.filter_nil]
          by_cases hbv : b = b' ∧ t = v <;> simp [hbv]
        rw [e1]
        by_cases hb' : b' = b
        · subst hb'
          rw [setf_self]
          by_cases hv : v = t
          · subst hv; simp [hS.stored]
          · have : ¬ t = v := fun h => hv h.symm
            simp [setf_ne _ _ hv, hS.stored, this]
        · have : ¬ b = b' := fun h => hb' h.symm
          simp [setf_ne _ _ hb', hS.stored, this]
      · rw [List.mem_append] at hy
        rcases hy with hy | hy
        · exact hS.born y hy
        · simp at hy
          subst hy
          have := hI.ctl.last b hbuf
          show b < x.c.log.nextBuf
          omega

end Phosphor.LogBuf
