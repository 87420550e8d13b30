import Verif.Proof.LogBufferRefineCall
/-
The accesses inside the functions of the buffer.
-/
namespace Phosphor.LogBuf
open TLog Custom
variable {ε : Type} {tid : Nat → Nat} {o o' : List (Nat × Nat × ε)} {x x' : XSt ε} {s s' : St ε} {t p : Nat}

/-- Thread `t` is inside a function of buffer `p` after a step of the buffer alone. -/
structure Near (x : XSt ε) (t p : Nat) (x' : XSt ε) : Prop where
  log : x'.c.log = x.c.log
  count : x'.c.count = x.c.count
  me : x'.c.inCall t = some p
  ins : ∀ u, u ≠ t → x'.c.inCall u = x.c.inCall u
  bufs : ∀ q, q ≠ p → x'.buf q = x.buf q
  others : Others (x.buf p) t (x'.buf p)

theorem Near.apart (h : Near x t p x') : Apart x t x' := by
  refine ⟨h.ins, fun u _ => by rw [h.log], fun u _ => by rw [h.log], fun u hu q _ => ?_⟩
  by_cases hq : q = p
  · subst hq; exact h.others u hu
  · rw [h.bufs q hq]; exact ⟨rfl, rfl⟩

theorem near_set {b : Buf} (hin : x.c.inCall t = some p) (ho : Others (x.buf p) t b) :
    Near x t p ⟨x.c, setf x.buf p b⟩ :=
  ⟨rfl, rfl, hin, fun _ _ => rfl, fun q hq => setf_ne _ _ hq, by simpa using ho⟩

theorem seenChunk_in (hin : x.c.inCall t = some p) (hk : kind (x.c.log.pc t) ≠ .out) :
    seenChunk x t = ((x.buf p).hand t).map (fun i => (p, i)) := by
  unfold seenChunk
  rw [hin]
  cases hh : kind (x.c.log.pc t) with
  | out => exact absurd hh hk
  | getting => rfl
  | returning => rfl

theorem seenWait_in (hin : x.c.inCall t = some p) : seenWait x t = (x.buf p).waits t := by simp [seenWait, hin]

theorem Near.bufSeen (h : Near x t p x') (hS : Seen tid o x s) (hb : x.c.log.buffer = some p) {B : Buffer ε}
    (hB : BufSeen (x'.buf p) B) (q : Nat) (hq : x'.c.log.buffer = some q) : BufSeen (x'.buf q) (setf s.heap p B q) := by
  rw [h.log, hb] at hq
  cases hq
  rw [setf_self]; exact hB

/-- Nothing has happened as far as Model/TraceLog is concerned. -/
theorem Near.stutter (h : Near x t p x') (hS : Seen tid o x s) (hb : x.c.log.buffer = some p)
    (hct : seenChunk x' t = seenChunk x t) (hw : seenWait x' t = seenWait x t)
    (hB : ∀ B : Buffer ε, BufSeen (x.buf p) B → BufSeen (x'.buf p) B) : Seen tid o x' s := by
  refine hS.stutter h.apart (by rw [h.log]; exact hS.eqs) (fun _ => by rw [h.log]) (by rw [seenPc, seenPc, h.log, hct, hw]) hct
    (.inl (by rw [h.log])) (by rw [h.log]) (fun q B hq hB' => ?_) (fun q i _ => by unfold events; rw [h.log, h.count])
    (fun _ _ _ _ _ => by rw [h.count])
  rw [h.log, hb] at hq
  cases hq
  exact hB B hB'

theorem loaned_mine {i : Nat} {evs : List ε} (h : ((s.loaned t p i).contents p)[i]? = some (t, evs)) : evs = [] := by
  simp only [St.loaned, setf_self] at h
  split at h <;> rename_i hl
  · rw [List.getElem?_set_self hl] at h; cases h; rfl
  · by_cases he : i = (s.contents p).length
    · subst he; simp at h; exact h
    · rw [List.getElem?_eq_none (by simp; omega)] at h; cases h

theorem loaned_other {i q j u : Nat} {evs : List ε} (hu : u ≠ t) (h : ((s.loaned t p i).contents q)[j]? = some (u, evs)) :
    (s.contents q)[j]? = some (u, evs) := by
  by_cases hq : q = p
  · subst hq
    simp only [St.loaned, setf_self] at h
    split at h <;> rename_i hl
    · by_cases hj : j = i
      · subst hj; rw [List.getElem?_set_self hl] at h; cases h; exact absurd rfl hu
      · rwa [List.getElem?_set_ne (fun e => hj e.symm)] at h
    · rw [List.getElem?_append] at h
      split at h <;> rename_i hl
      · exact h
      · cases hk : j - (s.contents q).length with
        | zero => rw [hk] at h; simp at h; exact absurd h.1.symm hu
        | succ k => rw [hk] at h; simp at h
  · simpa only [St.loaned, setf_ne _ _ hq] using h

/-- A chunk is issued. -/
theorem Near.issued (h : Near x t p x') (hS : Seen tid o x s) (hb : x.c.log.buffer = some p) {e : ε} {i : Nat} {B : Buffer ε}
    (hp : x.c.log.pc t = .getWait e p) (hh : (x'.buf p).hand t = some i) (hB : BufSeen (x'.buf p) B) :
    Seen tid o x' ((((s.setBuf p B).loaned t p i).setChunk t (some (p, i))).goto t (.store e)) := by
  have hp' : x'.c.log.pc t = .getWait e p := by rw [h.log, hp]
  have hsc : seenChunk x' t = some (p, i) := by
    rw [seenChunk_in h.me (by rw [hp']; simp [kind]), hh]; rfl
  refine hS.inner (t := t) h.apart ?_ (fun u => ?_) (fun u hu => ?_) (fun u hu => ?_) ?_ ?_ ?_ (fun q hq => ?_) (fun q j evs h1 h2 => ?_)
    (fun u hu q j evs h1 h2 => ?_) (fun _ _ _ _ _ => by rw [h.count]) hS.stored (by rw [h.log]; exact hS.born)
  · rw [h.log]; exact ⟨hS.config, hS.enabled, hS.owner, hS.buffer, hS.generation, hS.status, hS.nextBuf, hS.contexts⟩
  · rw [h.log, ← hS.lock]
    by_cases hu : u = t
    · subst hu; simp [St.setChunk, St.goto, St.loaned, St.setBuf]
    · simp [St.setChunk, St.goto, St.loaned, St.setBuf, setf_ne _ _ hu]
  · simp [St.setChunk, St.goto, St.loaned, St.setBuf, setf_ne _ _ hu]
  · simp [St.setChunk, St.goto, St.loaned, St.setBuf, setf_ne _ _ hu]
  · rw [seenPc, hsc, hp']; simp [St.setChunk, St.goto, St.loaned, St.setBuf, seePc]
  · rw [hsc]; simp [St.setChunk, St.goto, St.loaned, St.setBuf]
  · have e1 : seenCore tid x' = seenCore tid x :=
      seenCore_keep (t := t) (by rw [h.log]) (fun u _ => by rw [h.log]) (fun u hu => h.apart.chunk hu) (by simp [hp]) (by simp [hp'])
        (by rw [h.log]) (by rw [h.log])
    rw [core_goto, core_setChunk, e1, ← hS.core]; rfl
  · exact h.bufSeen hS hb hB q hq
  · rw [hsc] at h1; cases h1
    have := loaned_mine (s := s.setBuf p B) h2
    subst this
    simp [events, hp']
  · exact loaned_other (s := s.setBuf p B) hu h2

/-- `getChunk` of a ring begins to wait. -/
theorem Near.waiting (h : Near x t p x') (hS : Seen tid o x s) (hb : x.c.log.buffer = some p) {e : ε} {B : Buffer ε}
    (hp : x.c.log.pc t = .getWait e p) (hh0 : (x.buf p).hand t = none) (hin : x.c.inCall t = some p)
    (hh : (x'.buf p).hand t = none) (hw : (x'.buf p).waits t = true)
    (hB : BufSeen (x'.buf p) B) : Seen tid o x' ((s.setBuf p B).goto t (.getWait e p)) := by
  have hp' : x'.c.log.pc t = .getWait e p := by rw [h.log, hp]
  have hsc : seenChunk x' t = none := by
    rw [seenChunk_in h.me (by rw [hp']; simp [kind]), hh]; rfl
  have hsc0 : seenChunk x t = none := by
    rw [seenChunk_in hin (by rw [hp]; simp [kind]), hh0]; rfl
  refine hS.inner (t := t) h.apart ?_ (fun u => ?_) (fun u hu => ?_) (fun u hu => rfl) ?_ ?_ ?_ (fun q hq => ?_) (fun q j evs h1 h2 => ?_)
    (fun u hu q j evs h1 h2 => h2) (fun _ _ _ _ _ => by rw [h.count]) hS.stored (by rw [h.log]; exact hS.born)
  · rw [h.log]; exact ⟨hS.config, hS.enabled, hS.owner, hS.buffer, hS.generation, hS.status, hS.nextBuf, hS.contexts⟩
  · rw [h.log, ← hS.lock]; rfl
  · simp [St.goto, St.setBuf, setf_ne _ _ hu]
  · rw [seenPc, hsc, hp', seenWait_in h.me, hw]; simp [St.goto, St.setBuf, seePc]
  · rw [hsc, ← hsc0, ← hS.chunk]; rfl
  · have e1 : seenCore tid x' = seenCore tid x :=
      seenCore_keep (t := t) (by rw [h.log]) (fun u _ => by rw [h.log]) (fun u hu => h.apart.chunk hu) (by simp [hp]) (by simp [hp'])
        (by rw [h.log]) (by rw [h.log])
    rw [core_goto, e1, ← hS.core]; rfl
  · exact h.bufSeen hS hb hB q hq
  · rw [hsc] at h1; cases h1

/-- A chunk is given back by `replaceChunk`. -/
theorem Near.returned (h : Near x t p x') (hS : Seen tid o x s) (hb : x.c.log.buffer = some p) {e : ε} {q : Nat} {B : Buffer ε}
    (hp : x.c.log.pc t = .retDo e q) (hh : (x'.buf p).hand t = none) (hB : BufSeen (x'.buf p) B) :
    Seen tid o x' (((s.setBuf p B).setChunk t none).goto t (.getCheck e)) := by
  have hp' : x'.c.log.pc t = .retDo e q := by rw [h.log, hp]
  have hsc : seenChunk x' t = none := by
    rw [seenChunk_in h.me (by rw [hp']; simp [kind]), hh]; rfl
  refine hS.inner (t := t) h.apart ?_ (fun u => ?_) (fun u hu => ?_) (fun u hu => ?_) ?_ ?_ ?_ (fun q hq => ?_) (fun q j evs h1 h2 => ?_)
    (fun u hu q j evs h1 h2 => h2) (fun _ _ _ _ _ => by rw [h.count]) hS.stored (by rw [h.log]; exact hS.born)
  · rw [h.log]; exact ⟨hS.config, hS.enabled, hS.owner, hS.buffer, hS.generation, hS.status, hS.nextBuf, hS.contexts⟩
  · rw [h.log, ← hS.lock]
    by_cases hu : u = t
    · subst hu; simp [St.setChunk, St.goto, St.setBuf]
    · simp [St.setChunk, St.goto, St.setBuf, setf_ne _ _ hu]
  · simp [St.setChunk, St.goto, St.setBuf, setf_ne _ _ hu]
  · simp [St.setChunk, St.goto, St.setBuf, setf_ne _ _ hu]
  · rw [seenPc, hsc, hp']; simp [St.setChunk, St.goto, St.setBuf, seePc]
  · rw [hsc]; simp [St.setChunk, St.goto, St.setBuf]
  · have e1 : seenCore tid x' = seenCore tid x :=
      seenCore_keep (t := t) (by rw [h.log]) (fun u _ => by rw [h.log]) (fun u hu => h.apart.chunk hu) (by simp [hp]) (by simp [hp'])
        (by rw [h.log]) (by rw [h.log])
    rw [core_goto, core_setChunk, e1, ← hS.core]; rfl
  · exact h.bufSeen hS hb hB q hq
  · rw [hsc] at h1; cases h1

/-- A chunk is given back by `deregisterThread`. -/
theorem Near.deregistered (h : Near x t p x') (hS : Seen tid o x s) (hX : Custom.Inv x.c) (hb : x.c.log.buffer = some p)
    {i : Nat} (hp : x.c.log.pc t = .deregBody) (hc0 : seenChunk x t = some (p, i)) (hh : (x'.buf p).hand t = none)
    (hini : (x.c.log.tenant t).initialised = true)
    (hB : BufSeen (x'.buf p) ((s.heap p).returnChunk i)) (hr : TLog.Reachable true tid s) :
    ∃ s', By tid t [] s s' ∧ Seen tid o x' s' := by
  have hp' : x'.c.log.pc t = .deregBody := by rw [h.log, hp]
  have hown : x.c.log.owner = some t := owner_me hX (by simp [hp, Pc.holdsMutex])
  have hsc : seenChunk x' t = none := by
    rw [seenChunk_in h.me (by rw [hp']; simp [kind]), hh]; rfl
  have hpc : s.pc t = .deregBody := by rw [hS.pc, seenPc, hp, hc0]; rfl
  have hce : core s = core x.c.log := by
    rw [hS.core]
    have : leaving x = none := by simp [leaving, hown, hp, hc0]
    simp [seenCore, this]
  have hi' : (s.tenant t).initialised = true := by
    rw [(core_iff.1 hce).2.2.2.2]; exact hini
  have hns : s.next true tid t .step ≠ .ub := hr.inv.next_safe
  simp only [St.next, St.logStep, St.heldStep, hpc] at hns
  cases hd : s.deregisterBody tid t with
  | none => rw [hd] at hns; exact absurd rfl hns
  | some s1 =>
    have D := deregisterBody_spec hd
    refine ⟨s1.goto t .release, .one (c := .step) (by simp [St.next, St.logStep, St.heldStep, hpc, hd]), ?_⟩
    obtain ⟨_, hheap⟩ := D.gave p i p hi' (by rw [hS.chunk, hc0]) (by rw [hS.buffer, hb])
    refine hS.inner (t := t) h.apart ?_ (fun u => ?_) (fun u hu => ?_) (fun u hu => D.other u hu) ?_ ?_ ?_ (fun q hq => ?_)
      (fun q j evs h1 h2 => ?_) (fun u hu q j evs h1 h2 => ?_) (fun _ _ _ _ _ => by rw [h.count]) (fun b v => ?_)
      (by rw [h.log]; exact hS.born)
    · rw [h.log]
      have E := D.eqs
      exact ⟨E.1.trans hS.config, E.2.trans hS.enabled, E.3.trans hS.owner, E.4.trans hS.buffer, E.5.trans hS.generation,
        E.6.trans hS.status, E.7.trans hS.nextBuf, E.8.trans hS.contexts⟩
    · rw [h.log, ← hS.lock]; exact D.lock u
    · simp [St.goto, setf_ne _ _ hu, D.pc]
    · rw [seenPc, hsc, hp']; simp [St.goto, seePc]
    · rw [hsc]
      show (s1.tenant t).chunk = none
      rw [D.mine, hi']; rfl
    · rw [core_goto, D.core, hce, hS.enabled]
      have : leaving x' = some t := by simp [leaving, h.log, hown, hp, hsc]
      simp [seenCore, this, h.log]
    · show BufSeen _ (s1.heap q)
      rw [hheap]
      exact h.bufSeen hS hb hB q hq
    · rw [hsc] at h1; cases h1
    · rw [← D.contents]; exact h2
    · show s1.stored b v = _
      rw [D.stored]; exact hS.stored b v

theorem seenWait_none (hin : x.c.inCall t = none) : seenWait x t = false := seenWait_out hin

/-- A call ends: the thread is in no function of the buffer any more. -/
theorem apart_end {l : St ε} {b : Buf} {lent : Nat → Nat → Bool} {cnt : Nat → Nat → Nat} {cs : List Call}
    (ho : Others (x.buf p) t b) (h1 : ∀ u, u ≠ t → l.pc u = x.c.log.pc u)
    (h2 : ∀ u, u ≠ t → (l.tenant u).chunk = (x.c.log.tenant u).chunk) :
    Apart x t ⟨{ log := l, lent := lent, count := cnt, inCall := setf x.c.inCall t none, calls := cs }, setf x.buf p b⟩ := by
  refine ⟨fun u hu => setf_ne _ _ hu, h1, h2, fun u hu q _ => ?_⟩
  by_cases hq : q = p
  · subst hq; simpa using ho u hu
  · simp only [setf_ne _ _ hq, and_self]

theorem sim_access (hS : Seen tid o x s) (hX : XInv tid x) (hr : TLog.Reachable true tid s) (hin : x.c.inCall t = some p)
    {sp : Bool} (hs : x.access tid t p sp = .to x') : ∃ s', By tid t [] s s' ∧ Seen tid o x' s' := by
  have hI := hX.inv
  obtain ⟨hins, hb⟩ := hI.inside t p hin
  have L := hX.link p hb
  have hph : (x.buf p).phase t = kind (x.c.log.pc t) := by rw [L.phase, doing, if_pos hin]
  have hmap : s.mapped p = true := by rw [hS.mapped]; exact mapped_buffer hI.ctl hb
  have hBS := hS.bufs p hb
  have T := buf_turn (ε := ε) (t := t) L.good sp
  unfold XSt.access at hs
  cases hp : x.c.log.pc t with
  | held w st =>
    rw [hp] at hs hins
    cases w <;> simp only [insidePc] at hins
    simp only [CSt.next, hin, CSt.leave, hp, XSt.back] at hs
    cases hs
    refine ⟨s, .refl, hS.stutter (t := t) ?_ hS.eqs (fun _ => rfl) ?_ ?_ (.inl rfl) rfl (fun _ _ _ h => h) (fun _ _ _ => rfl)
      (fun _ _ _ _ _ => rfl)⟩
    · exact ⟨fun u hu => setf_ne _ _ hu, fun _ _ => rfl, fun _ _ => rfl, fun _ _ _ _ => ⟨rfl, rfl⟩⟩
    · simp only [seenPc, hp]; rfl
    · simp only [seenChunk, setf_self, hin, hp, kind]
  | getWait e q =>
    rw [hp] at hs hins hph
    have hq : q = p := hins
    subst hq
    have hk : kind (x.c.log.pc t) ≠ .out := by rw [hp]; simp [kind]
    have hsc := seenChunk_in hin hk
    have hsw := seenWait_in hin
    have hpc := hS.pc t
    rw [seenPc, hp, hsc, hsw] at hpc
    dsimp only at hs
    cases hev : (x.buf q).step t sp with
    | blocked => rw [hev] at hs; cases hs
    | ub => rw [hev] at hs; cases hs
    | gave b' => rw [hev] at hs; simp [CSt.next, hin, CSt.leave, hp, XSt.back] at hs
    | inside b' =>
      rw [hev] at hs T
      obtain ⟨ho, T⟩ := T
      cases hs
      have N := near_set hin ho
      cases T with
      | skip h w B =>
        refine ⟨s, .refl, N.stutter hS hb ?_ ?_ (by simpa using B)⟩
        · rw [seenChunk_in N.me hk, hsc]; simp [h]
        · rw [seenWait_in N.me, hsw]; simp [w]
      | wait f h w h' w' B =>
        rw [h, w] at hpc
        obtain ⟨hm, B', hc, hB'⟩ := B (tid t) _ hBS
        refine ⟨_, .one (c := .step) ?_, N.waiting hS hb hp h hin (by simpa using h') (by simpa using w') (B := B') (by simpa using hB')⟩
        simp [St.next, St.logStep, hpc, seePc, hmap, hm, hc]
      | issue i f h w h' B =>
        rw [h, w] at hpc
        obtain ⟨B', hB', hc⟩ := B (tid t) _ hBS
        refine ⟨_, .one (c := .step) ?_, N.issued hS hb hp (by simpa using h') (B := B') (by simpa using hB')⟩
        rcases hc with ⟨hm, hc⟩ | ⟨hm, hc⟩ <;> simp [St.next, St.logStep, hpc, seePc, hmap, hm, hc]
      | take i f h w h' B =>
        rw [h, w] at hpc
        obtain ⟨hm, B', hc, hB'⟩ := B (tid t) _ hBS
        refine ⟨_, .one (c := .step) ?_, N.issued hS hb hp (by simpa using h') (B := B') (by simpa using hB')⟩
        simp [St.next, St.logStep, hpc, seePc, hmap, hc]
      | put i f h h' B => rw [f] at hph; cases hph
    | got b' r =>
      rw [hev] at hs T
      simp only [CSt.next, CSt.result, hp] at hs
      cases r with
      | none =>
        simp only [XSt.back] at hs
        cases hs
        obtain ⟨ho, h, w, B⟩ := T
        rw [h, w] at hpc
        obtain ⟨hm, B', hc, hB'⟩ := B (tid t) _ hBS
        refine ⟨(s.setBuf q B').goto t (.failed (some q)), .one (c := .step) ?_, ?_⟩
        · simp [St.next, St.logStep, hpc, seePc, hmap, hm, hc]
        have hno : (x.c.log.tenant t).chunk = none := hI.ctl.noChunk t (by simp [hp, Pc.noChunk])
        have hpu : ∀ u, u ≠ t → (x.c.log.goto t (.failed (some q))).pc u = x.c.log.pc u := fun u hu => setf_ne _ _ hu
        have A := apart_end (l := x.c.log.goto t (.failed (some q))) (lent := x.c.lent) (cnt := x.c.count)
          (cs := .getEnd t q none :: x.c.calls) ho hpu (fun _ _ => rfl)
        refine hS.inner (t := t) A ?_ (fun u => hS.lock u) (fun u hu => ?_) (fun u hu => rfl) ?_ ?_ ?_ (fun q' hq => ?_)
          (fun q j evs h1 h2 => ?_) (fun u hu q j evs h1 h2 => h2) (fun _ _ _ _ _ => rfl) hS.stored hS.born
        · exact ⟨hS.config, hS.enabled, hS.owner, hS.buffer, hS.generation, hS.status, hS.nextBuf, hS.contexts⟩
        · simp [St.goto, St.setBuf, setf_ne _ _ hu]
        · simp [seenPc, St.goto, St.setBuf, seePc]
        · rw [seenChunk_out (by simp)]
          show (s.tenant t).chunk = (x.c.log.tenant t).chunk
          rw [hS.chunk, hsc, h, hno]; rfl
        · show core s = _
          rw [hS.core]
          symm
          exact seenCore_keep (tid := tid) (t := t) (x := x) rfl A.pcs (fun u hu => A.chunk hu) (by simp [hp])
            (by simp [St.goto]) rfl rfl
        · have : q' = q := by
            have : some q' = some q := (show x.c.log.buffer = some q' from hq).symm.trans hb
            cases this; rfl
          subst this
          simpa [St.goto, St.setBuf] using hB'
        · rw [seenChunk_out (by simp)] at h1
          have h1' : (x.c.log.tenant t).chunk = some (q, j) := h1
          rw [hno] at h1'; cases h1'
      | some i =>
        obtain ⟨ho, h, B⟩ := T
        dsimp only at hs
        split at hs
        · cases hs
        · cases hs
          have hsc' : seenChunk x t = some (q, i) := by rw [hsc, h]; rfl
          have hpu : ∀ u, u ≠ t → ((x.c.log.setChunk t (some (q, i))).goto t (.store e)).pc u = x.c.log.pc u :=
            fun u hu => setf_ne _ _ hu
          have A := apart_end (l := (x.c.log.setChunk t (some (q, i))).goto t (.store e)) (lent := set2 x.c.lent q i true)
            (cnt := set2 x.c.count q i 0)
            (cs := .getEnd t q (some i) :: x.c.calls) ho hpu (fun u hu => by simp [St.goto, St.setChunk, setf_ne _ _ hu])
          refine ⟨s, .refl, hS.stutter (t := t) A ?_ (fun u => ?_) ?_ ?_ (.inr ⟨by simp [hp], by simp [St.goto]⟩) ?_
            (fun q' B' hq hB' => ?_) (fun q' j h1 => ?_) (fun u hu q' j h1 => ?_)⟩
          · exact ⟨hS.config, hS.enabled, hS.owner, hS.buffer, hS.generation, hS.status, hS.nextBuf, hS.contexts⟩
          · by_cases hu : u = t
            · subst hu; simp [St.setChunk, St.goto]
            · simp [St.setChunk, St.goto, setf_ne _ _ hu]
          · rw [seenPc, seenPc, hp, hsc']; simp [St.goto, seePc]
          · rw [seenChunk_out (by simp), hsc']; simp [St.goto, St.setChunk]
          · rw [core_goto, core_setChunk]
          · have : q' = q := by
              have : some q' = some q := (show x.c.log.buffer = some q' from hq).symm.trans hb
              cases this; rfl
            subst this
            simpa using B B' hB'
          · rw [hsc'] at h1; cases h1
            rw [events_of (by simp [St.goto])]
            simp [events, hp, set2]
          · have hne : ¬ (q' = q ∧ j = i) := by
              rintro ⟨rfl, rfl⟩
              exact hu (C44_exclusive hr (by rw [hS.chunk, h1]) (by rw [hS.chunk, hsc']))
            by_cases hq : q' = q
            · subst hq
              have hj : j ≠ i := fun e => hne ⟨rfl, e⟩
              simp [set2, setf_ne _ _ hj]
            · simp [set2, setf_ne _ _ hq]
  | retDo e q =>
    rw [hp] at hs hins hph
    have hq : q = p := hins
    subst hq
    have hk : kind (x.c.log.pc t) ≠ .out := by rw [hp]; simp [kind]
    have hsc := seenChunk_in hin hk
    have hsw := seenWait_in hin
    have hpc := hS.pc t
    rw [seenPc, hp] at hpc
    dsimp only at hs
    cases hev : (x.buf q).step t sp with
    | blocked => rw [hev] at hs; cases hs
    | ub => rw [hev] at hs; cases hs
    | got b' r => rw [hev] at hs; simp [CSt.next, CSt.result, hp, XSt.back] at hs
    | inside b' =>
      rw [hev] at hs T
      obtain ⟨ho, T⟩ := T
      cases hs
      have N := near_set hin ho
      cases T with
      | skip h w B =>
        refine ⟨s, .refl, N.stutter hS hb ?_ ?_ (by simpa using B)⟩
        · rw [seenChunk_in N.me hk, hsc]; simp [h]
        · rw [seenWait_in N.me, hsw]; simp [w]
      | wait f => rw [f] at hph; cases hph
      | issue i f => rw [f] at hph; cases hph
      | take i f => rw [f] at hph; cases hph
      | put i f h h' B =>
        have hsc' : seenChunk x t = some (q, i) := by rw [hsc, h]; rfl
        rw [hsc'] at hpc
        refine ⟨_, .one (c := .step) ?_, N.returned hS hb hp (by simpa using h') (B := (s.heap q).returnChunk i)
          (by simpa using B _ hBS)⟩
        simp [St.next, St.logStep, hpc, seePc, hmap, hS.chunk, hsc']
    | gave b' =>
      rw [hev] at hs T
      simp only [CSt.next, hin, CSt.leave, hp] at hs
      obtain ⟨ho, h, B⟩ := T
      cases hct : (x.c.log.tenant t).chunk with
      | none => rw [hct] at hs; cases hs
      | some bc =>
        obtain ⟨b, c⟩ := bc
        rw [hct] at hs
        simp only [XSt.back] at hs
        cases hs
        have hsc' : seenChunk x t = none := by rw [hsc, h]; rfl
        have hpu : ∀ u, u ≠ t → ((x.c.log.setChunk t none).goto t (.getCheck e)).pc u = x.c.log.pc u :=
          fun u hu => setf_ne _ _ hu
        have A := apart_end (l := (x.c.log.setChunk t none).goto t (.getCheck e)) (lent := x.c.lent)
          (cnt := x.c.count) (cs := .retEnd t q c :: x.c.calls) ho hpu (fun u hu => by simp [St.goto, St.setChunk, setf_ne _ _ hu])
        refine ⟨s, .refl, hS.stutter (t := t) A ?_ (fun u => ?_) ?_ ?_ (.inr ⟨by simp [hp], by simp [St.goto]⟩) ?_
            (fun q' B' hq hB' => ?_) (fun q' j h1 => ?_) (fun u hu q' j h1 => rfl)⟩
        · exact ⟨hS.config, hS.enabled, hS.owner, hS.buffer, hS.generation, hS.status, hS.nextBuf, hS.contexts⟩
        · by_cases hu : u = t
          · subst hu; simp [St.setChunk, St.goto]
          · simp [St.setChunk, St.goto, setf_ne _ _ hu]
        · rw [seenPc, seenPc, hp, hsc']; simp [St.goto, seePc]
        · rw [seenChunk_out (by simp), hsc']; simp [St.goto, St.setChunk]
        · rw [core_goto, core_setChunk]
        · have : q' = q := by
            have : some q' = some q := (show x.c.log.buffer = some q' from hq).symm.trans hb
            cases this; rfl
          subst this
          simpa using B B' hB'
        · rw [hsc'] at h1; cases h1
  | deregBody =>
    rw [hp] at hs hins hph
    have hk : kind (x.c.log.pc t) ≠ .out := by rw [hp]; simp [kind]
    have hsc := seenChunk_in hin hk
    have hsw := seenWait_in hin
    have hpc := hS.pc t
    rw [seenPc, hp] at hpc
    dsimp only at hs
    cases hev : (x.buf p).step t sp with
    | blocked => rw [hev] at hs; cases hs
    | ub => rw [hev] at hs; cases hs
    | got b' r => rw [hev] at hs; simp [CSt.next, CSt.result, hp, XSt.back] at hs
    | inside b' =>
      rw [hev] at hs T
      obtain ⟨ho, T⟩ := T
      cases hs
      have N := near_set hin ho
      cases T with
      | skip h w B =>
        refine ⟨s, .refl, N.stutter hS hb ?_ ?_ (by simpa using B)⟩
        · rw [seenChunk_in N.me hk, hsc]; simp [h]
        · rw [seenWait_in N.me, hsw]; simp [w]
      | wait f => rw [f] at hph; cases hph
      | issue i f => rw [f] at hph; cases hph
      | take i f => rw [f] at hph; cases hph
      | put i f h h' B =>
        have hsc' : seenChunk x t = some (p, i) := by rw [hsc, h]; rfl
        refine N.deregistered hS hI hb hp hsc' (by simpa using h') ?_ (by simpa using B _ hBS) hr
        exact hI.ctl.chunkInit t (hI.retChunk t p hin (by simp [hp, returning]))
    | gave b' =>
      rw [hev] at hs T
      simp only [CSt.next, hin, CSt.leave, hp] at hs
      obtain ⟨ho, h, B⟩ := T
      cases hct : (x.c.log.tenant t).chunk with
      | none => rw [hct] at hs; cases hs
      | some bc =>
        obtain ⟨b, c⟩ := bc
        rw [hct] at hs
        simp only [XSt.back] at hs
        cases hs
        have hsc' : seenChunk x t = none := by rw [hsc, h]; rfl
        have A := apart_end (l := x.c.log.setChunk t none) (lent := x.c.lent)
          (cnt := x.c.count) (cs := .retEnd t p c :: x.c.calls) ho (fun _ _ => rfl) (fun u hu => by simp [St.setChunk, setf_ne _ _ hu])
        refine ⟨s, .refl, hS.stutter (t := t) A ?_ (fun u => ?_) ?_ ?_ (.inl rfl) ?_
            (fun q' B' hq hB' => ?_) (fun q' j h1 => ?_) (fun u hu q' j h1 => rfl)⟩
        · exact ⟨hS.config, hS.enabled, hS.owner, hS.buffer, hS.generation, hS.status, hS.nextBuf, hS.contexts⟩
        · by_cases hu : u = t
          · subst hu; simp [St.setChunk]
          · simp [St.setChunk, setf_ne _ _ hu]
        · rw [seenPc, seenPc, hsc', seenChunk_out (by simp)]
          simp [St.setChunk, seePc, hp]
        · rw [seenChunk_out (by simp), hsc']; simp [St.setChunk]
        · rw [core_setChunk]
        · have : q' = p := by
            have : some q' = some p := (show x.c.log.buffer = some q' from hq).symm.trans hb
            cases this; rfl
          subst this
          simpa using B B' hB'
        · rw [hsc'] at h1; cases h1
  | _ => rw [hp] at hins; exact absurd hins (by simp [insidePc])

end Phosphor.LogBuf
