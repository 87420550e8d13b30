import Verif.Proof.TraceLogRing
import Verif.Proof.TraceLogSolo
import Verif.Props.TraceLogFull
/-
Ring mode with one logging thread (C59): what the buffer holds after any number of events, and
that the thread is never held up.
-/
namespace Phosphor.TLog
variable {ε : Type} {tid : Nat → Nat} {s s' : St ε} {t : Nat} {pol : Bool}

/-- In the execution `l` only thread `t` logs, and it does not deregister. The other threads may
do anything else: register, start, stop, retrieve buffers, run callbacks. -/
def OnlyLogger (t : Nat) (l : List (Nat × Choice ε)) : Prop :=
  ∀ u c, (u, c) ∈ l → (∀ e, c = .log e → u = t) ∧ (u = t → c ≠ .deregister)

theorem Ringing.run {b : Nat} {l : List (Nat × Choice ε)} (h : Ringing t b s) (hr : Reachable true tid s)
    (hs : s.run true tid l = .to s') (hl : OnlyLogger t l) : Ringing t b s' := by
  induction l generalizing s with
  | nil => cases hs; exact h
  | cons p l ih =>
    obtain ⟨u, c⟩ := p
    simp only [St.run] at hs
    split at hs
    · rename_i s1 h1
      have h2 := hl u c (by simp)
      exact ih (h.next hr h1 h2.1 h2.2) (hr.step h1) hs (fun v d hm => hl v d (List.mem_cons_of_mem _ hm))
    · cases hs
    · cases hs

/-- When a run begins no chunk has been handed out. -/
theorem fresh_contents (h : Reachable true tid s) : ∀ o, (s.pc o).isEnable = true →
    s.contents (s.nextBuf - 1) = [] := by
  induction h with
  | init => intro o ho; cases ho
  | step hr hs ih =>
    rename_i s s' u c
    intro o ho
    have quiet : s'.nextBuf = s.nextBuf → (s.pc o).isEnable = true → s'.contents (s'.nextBuf - 1) = [] := by
      intro hn hp
      have hpos := hr.runs.pos o hp
      have hno := hr.ctl.enable_none hp u
      have hsame : SameBuf (s.nextBuf - 1) s s' := by
        refine next_same hs (by omega) (fun e => hno (Or.inr ?_)) (fun i e => hno (Or.inl ?_))
        · cases hq : s.pc u <;> rw [hq] at e <;> first | (cases e; done) | rfl
        · rw [e]; simp
      rw [hn, hsame.contents]
      exact ih o hp
    cases next_book hs with
    | calm new hn ha hd hb hst hh hp _ _ hk => exact quiet hn (hk o ho)
    | free b hb e => subst e; exact quiet rfl ho
    | retrieve cs st hp he' e => subst e; exact quiet rfl ho
    | create n st hp e => subst e; simp [St.goto, St.createBuffer]
    | enable st hp e =>
      subst e
      obtain ⟨q, hq, e⟩ := pop_goto s.enable u st
      rw [e] at ho
      by_cases hou : o = u
      · subst hou; rw [goto_pc, hq.2.2] at ho; cases ho
      · rw [goto_other _ _ _ _ hou] at ho
        have h1 := (hr.ctl.own o).2 (Pc.isEnable_spec _ ho).1
        have h2 := (hr.ctl.own u).2 (by rw [hp]; rfl)
        rw [h1] at h2
        cases h2
        exact absurd rfl hou
    | reg n hp hi e =>
      obtain ⟨e1, _⟩ := registerBody_frame (s := s) (tid := tid) (t := u) n
      refine quiet (by subst e; exact e1) ?_
      by_cases hou : o = u
      · subst hou; subst e; rw [goto_pc] at ho; cases ho
      · rw [← next_pc hs hou]; exact ho
    | dereg x hp hi hx e =>
      obtain ⟨hp', e1⟩ := deregisterBody_eq hi hx
      refine quiet (by rw [e, e1]; rfl) ?_
      by_cases hou : o = u
      · subst hou; subst e; rw [goto_pc] at ho; cases ho
      · rw [← next_pc hs hou]; exact ho

/-- A run begins in ring mode while nobody but perhaps `t` is in `logEvent`. -/
theorem Ringing.begin (h : Reachable true tid s) {o b : Nat} {st : List Frame}
    (hp : s.pc o = .held .startEnable st) (hb : s.buffer = some b) (hm : (s.heap b).mode = .ring)
    (hq : ∀ u, u ≠ t → (s.pc u).logging = false) : Ringing t b (s.enable.pop o st) := by
  obtain ⟨q, hq', e⟩ := pop_goto s.enable o st
  have hq2 : q.logging = false ∧ q.noChunk = false ∧ q.returning = false ∧ q.isStore = false ∧ q ≠ .deregBody := by
    have : (s.enable.pop o st).pc o = q := by rw [e, goto_pc]
    have h2 : ((s.enable.pop o st).pc o).logging = false ∧ ((s.enable.pop o st).pc o).noChunk = false ∧
        ((s.enable.pop o st).pc o).returning = false ∧ ((s.enable.pop o st).pc o).isStore = false ∧
        (s.enable.pop o st).pc o ≠ .deregBody := by
      unfold St.pop
      split <;> rw [goto_pc] <;> simp [Pc.logging, Pc.noChunk, Pc.returning, Pc.isStore]
    rw [this] at h2; exact h2
  rw [e]
  have hen : (s.pc o).isEnable = true := by rw [hp]; rfl
  have hl := h.ctl.last b hb
  have hnb : s.nextBuf - 1 = b := by omega
  have hno : ∀ u, (s.tenant u).chunk = none := by
    intro u
    apply Classical.byContradiction
    intro hc
    exact h.ctl.enable_none hen u (Or.inl hc)
  have hcont : s.contents b = [] := by have := fresh_contents h o hen; rw [hnb] at this; exact this
  have hst : s.stored b t = [] := by
    have := fresh_stored h o hen
    rw [hnb] at this
    rw [this]
  have hqueue : (s.heap b).queue = [] := by
    have := (h.data.bufs b).qlt
    rw [hcont] at this
    cases hqq : (s.heap b).queue with
    | nil => rfl
    | cons a l => exact absurd (this a (by rw [hqq]; simp)) (by simp)
  have hother : ∀ u, (s.pc u).isEnable = true → u = o := by
    intro u hu
    have h1 := (h.ctl.own u).2 (Pc.isEnable_spec _ hu).1
    have h2 := (h.ctl.own o).2 (by rw [hp]; rfl)
    rw [h1] at h2
    cases h2
    rfl
  refine ⟨?_, hm, fun u hu => ⟨?_, fun i hi => ?_⟩, ?_, ?_, fun u hu => ?_, none, [], ?_, (fun i hi => by cases hi),
    fun i hi => ?_, fun _ _ => rfl, fun _ _ _ => rfl⟩
  · show b < s.nextBuf
    omega
  · by_cases huo : u = o
    · subst huo; rw [goto_pc]; exact hq2.1
    · rw [goto_other _ _ _ _ huo]; exact hq u hu
  · have : (s.tenant u).chunk = some (b, i) := hi
    rw [hno] at this; cases this
  · by_cases hto : t = o
    · subst hto; rw [goto_pc]; exact hq2.2.2.2.2
    · rw [goto_other _ _ _ _ hto]
      intro hd
      have hd : s.pc t = .deregBody := hd
      have h1 := (h.ctl.own t).2 (by rw [hd]; rfl)
      have h2 := (h.ctl.own o).2 (by rw [hp]; rfl)
      rw [h1] at h2
      cases h2
      exact hto rfl
  · show ∀ p ∈ s.contents b, p.1 = t
    rw [hcont]; simp
  · exfalso
    by_cases huo : u = o
    · subst huo; rw [goto_pc, hq'.2.2] at hu; cases hu
    · rw [goto_other _ _ _ _ huo] at hu
      exact huo (hother u hu)
  · show Order (s.contents b) (s.heap b).queue none [] (s.stored b t) (s.heap b).chunks.length
    rw [hcont, hst, hqueue]
    exact Order.nil _
  · have : (s.tenant t).chunk = some (b, i) := hi
    rw [hno] at this; cases this

/-- C59: a run in ring mode with `N` chunks begins; from then on only thread `t` logs and does not
deregister, while the other threads do anything else, in any interleaving. At any later moment
reading the buffer yields, each exactly once and nothing else, the most recent events stored by
`t`: all of them, or at least `(N - 1) * capacity + 1` (one less while a call of `logEvent` is
under way). Whatever `N` and the number of events; also after tracing has been stopped and
restarted. -/
theorem C59_kept (h : Reachable true tid s) {o b : Nat} {st : List Frame} (hp : s.pc o = .held .startEnable st)
    (hb : s.buffer = some b) (hm : (s.heap b).mode = .ring) (hq : ∀ u, u ≠ t → (s.pc u).logging = false)
    {l : List (Nat × Choice ε)} (hr : s.run true tid ((o, .step) :: l) = .to s') (hl : OnlyLogger t l) :
    ∃ dropped kept evs, s'.stored b t = dropped ++ kept ∧ Reads (s'.heap b) evs ∧
      evs.Perm (kept.map (fun e => (e, tid t))) ∧
      (dropped = [] ∨ ((s'.heap b).chunks.length - 1) * chunkSize +
        (if (s'.pc t).event = none then 1 else 0) ≤ kept.length) := by
  have hs : s.next true tid o .step = .to (s.enable.pop o st) := by
    simp [St.next, St.logStep, St.heldStep, hp]
  simp only [St.run, hs] at hr
  have hring := (Ringing.begin (t := t) h hp hb hm hq).run (h.step hs) hr hl
  have hreach := run_reachable (h.step hs) hr
  obtain ⟨cur, dropped, hpl⟩ := hring.placed
  obtain ⟨kept, k1, k2, k3⟩ := hpl.order.kept (tid := tid) hring.mine
  refine ⟨dropped, kept, _, k1, C19_iterate _ _ (hreach.data.bufs b).holds, k2, ?_⟩
  rcases hpl.order.drop with hd | ⟨hlen, hpos⟩
  · exact Or.inl hd
  · right
    have hcount := hpl.order.count
    rw [k3]
    have hcs : 0 < chunkSize := by decide
    cases cur with
    | none =>
      simp at hcount
      rw [← hlen, ← hcount] at hpos ⊢
      obtain ⟨m, hm⟩ : ∃ m, (s'.heap b).queue.length = m + 1 := ⟨_, (Nat.succ_pred_eq_of_pos hpos).symm⟩
      rw [hm, Nat.add_sub_cancel, Nat.succ_mul]
      split <;> omega
    | some i =>
      simp at hcount
      rw [← hlen, ← hcount, Nat.add_sub_cancel]
      apply Nat.add_le_add_left
      split
      · rename_i hev
        rcases hpl.used i rfl with hne | ⟨hst, _⟩
        · have := List.length_pos_iff.2 hne
          simp; omega
        · cases hpc : s'.pc t <;> rw [hpc] at hst hev <;> first | (cases hst; done) | cases hev
      · exact Nat.zero_le _

/-- C59 in terms of the calls: while the run is not stopped and thread `t`, registered and between
calls when it began, is between calls again, the buffer holds the last events passed to
`logEvent` by `t`: all of them, or at least `(N - 1) * capacity + 1`. -/
theorem C59_last (h : Reachable true tid s) {o b : Nat} {st : List Frame} (hp : s.pc o = .held .startEnable st)
    (hb : s.buffer = some b) (hm : (s.heap b).mode = .ring) (hq : ∀ u, u ≠ t → (s.pc u).logging = false) (hto : t ≠ o)
    (hi : (s.pc t).event = none) (hreg : isReg t s.hist = true)
    {l : List (Nat × Choice ε)} (hr : s.run true tid ((o, .step) :: l) = .to s') (hl : OnlyLogger t l)
    {new : List Item} (hh : s'.hist = new ++ s.hist) (hns : ∀ sh full, Item.stop sh full ∉ new)
    (hnd : Item.deregOk t ∉ new) (hi' : (s'.pc t).event = none) :
    ∃ dropped kept evs, logged t l = dropped ++ kept ∧ Reads (s'.heap b) evs ∧
      evs.Perm (kept.map (fun e => (e, tid t))) ∧
      (dropped = [] ∨ ((s'.heap b).chunks.length - 1) * chunkSize + 1 ≤ kept.length) := by
  obtain ⟨dropped, kept, evs, k1, k2, k3, k4⟩ := C59_kept h hp hb hm hq hr hl
  rw [if_pos hi'] at k4
  refine ⟨dropped, kept, evs, ?_, k2, k3, k4⟩
  rw [← k1]
  obtain ⟨s1, b1, hs, hb1, hon, hst⟩ := C34_begins h hp
  have hs' : s.next true tid o .step = .to (s.enable.pop o st) := by
    simp [St.next, St.logStep, St.heldStep, hp]
  have e1 : s1 = s.enable.pop o st := by rw [hs] at hs'; cases hs'; rfl
  obtain ⟨q, _, e⟩ := pop_goto s.enable o st
  have hbb : b1 = b := by
    rw [e1, e] at hb1
    have : s.buffer = some b1 := hb1
    rw [hb] at this; cases this; rfl
  subst hbb
  have hh1 : s1.hist = .run (s.nextBuf - 1) s.config :: s.hist := by rw [e1, e]; rfl
  simp only [St.run, hs] at hr
  obtain ⟨n2, e2⟩ := run_hist hr
  have hnew : new = n2 ++ [.run (s.nextBuf - 1) s.config] := by
    have : new ++ s.hist = (n2 ++ [.run (s.nextBuf - 1) s.config]) ++ s.hist := by
      rw [← hh, e2, hh1]; simp
    exact List.append_cancel_right this
  have hlast := h.ctl.last b1 hb
  have hn1 : s1.nextBuf = s.nextBuf := by rw [e1, e]; rfl
  have hmode : (s'.heap b1).mode = .ring := by
    have := (run_counter (h.step hs) (b := b1) (by omega) hr).2.2
    rw [this, e1, e]; exact hm
  have key := C34_stored (t := t) (h.step hs) hr hon (by rw [hh1]; exact hreg) hb1 (new := n2) e2
    (fun a c hm => hns a c (by rw [hnew]; simp [hm])) (fun hm => hnd (by rw [hnew]; simp [hm])) (Or.inl hmode)
  rw [hst, hi', next_pc hs hto, hi] at key
  simpa using key.symm

/-! ### The thread is never held up -/

/-- How far a call of `logEvent` is from storing its event. -/
def Pc.togo : Pc ε → Nat
  | .readEnabled _ => 13 | .tryLock _ => 12 | .checkInit _ => 11 | .checkChunk _ => 10 | .recheck _ => 9
  | .retLoad _ => 8 | .retDo _ _ => 7 | .getCheck _ => 6 | .getNull _ => 5 | .getLoad _ => 4 | .getDo _ _ => 3
  | .getWait _ _ => 2 | .store _ => 1 | _ => 0

/-- One step of `t` on its own brings its event nearer to the buffer, or stores it. -/
theorem Ringing.progress {b : Nat} {e : ε} (h : Ringing t b s) (hr : Reachable true tid s) (hen : s.enabled = true)
    (hb : s.buffer = some b) (hpos : 0 < (s.heap b).chunks.length) (hi : (s.tenant t).initialised = true) (he : (s.pc t).event = some e) :
    ∃ s1, s.logStep tid t false = .to s1 ∧
      (s1.pc t = .unlock ∧ s.pc t = .store e ∨ (s1.pc t).event = some e ∧ (s1.pc t).togo < (s.pc t).togo) := by
  have hm : s.mapped b = true := by simp [St.mapped, (hr.ctl.status b).2 hb]
  have go : ∀ (q : Pc ε) (x : St ε), q.event = some e → q.togo < (s.pc t).togo → s.logStep tid t false = .to (x.goto t q) →
      ∃ s1, s.logStep tid t false = .to s1 ∧
      (s1.pc t = .unlock ∧ s.pc t = .store e ∨ (s1.pc t).event = some e ∧ (s1.pc t).togo < (s.pc t).togo) :=
    fun q x h1 h2 h3 => ⟨_, h3, Or.inr (by rw [goto_pc]; exact ⟨h1, h2⟩)⟩
  obtain ⟨p, hp⟩ : ∃ p, s.pc t = p := ⟨_, rfl⟩
  rw [hp] at he
  cases p <;> first | (cases he; done) | skip
  case readEnabled e' =>
    cases he
    exact go (.tryLock e) s rfl (by rw [hp]; simp [Pc.togo]) (by simp [St.logStep, hp, hen])
  case tryLock e' =>
    cases he
    have hlk : (s.tenant t).lock = .unlocked := by
      cases hl : (s.tenant t).lock with
      | unlocked => rfl
      | slaveLocked => have := (hr.ctl0.slave t).1 hl; rw [hp] at this; cases this
      | masterLocked => have := master_off hr.hist hr.ctl0 hl; rw [hen] at this; cases this
    exact go (.checkInit e) (s.setLock t .slaveLocked) rfl (by rw [hp]; simp [Pc.togo])
      (by simp only [St.logStep, hp, hlk]; rfl)
  case checkInit e' =>
    cases he
    exact go (.checkChunk e) s rfl (by rw [hp]; simp [Pc.togo]) (by simp [St.logStep, hp, hi])
  case checkChunk e' =>
    cases he
    cases hc : (s.tenant t).chunk with
    | none => exact go (.recheck e) s rfl (by rw [hp]; simp [Pc.togo]) (by simp [St.logStep, hp, hc])
    | some p =>
      obtain ⟨b', i⟩ := p
      have hb' := hr.ctl.chunkBuf t b' i hc
      rw [hb] at hb'
      cases hb'
      obtain ⟨c, evs, hc', _, _⟩ := hr.data.chunkAt hc
      by_cases hf : c.isFull = true
      · exact go (.recheck e) s rfl (by rw [hp]; simp [Pc.togo]) (by simp [St.logStep, hp, hc, hm, hc', hf])
      · exact go (.store e) s rfl (by rw [hp]; simp [Pc.togo]) (by simp [St.logStep, hp, hc, hm, hc', hf])
  case recheck e' =>
    cases he
    by_cases hc : (s.tenant t).chunk.isSome = true
    · exact go (.retLoad e) s rfl (by rw [hp]; simp [Pc.togo]) (by simp [St.logStep, hp, hen, hc])
    · exact go (.getCheck e) s rfl (by rw [hp]; simp [Pc.togo]) (by simp [St.logStep, hp, hen, hc])
  case retLoad e' =>
    cases he
    exact go (.retDo e b) s rfl (by rw [hp]; simp [Pc.togo]) (by simp [St.logStep, hp, hb])
  case retDo e' p =>
    cases he
    have hb' := hr.ctl.ptr t p (by rw [hp]; rfl)
    rw [hb] at hb'
    cases hb'
    have hc := hr.ctl.needChunk t (by rw [hp]; rfl)
    cases hc' : (s.tenant t).chunk with
    | none => exact absurd hc' hc
    | some c =>
      obtain ⟨b', i⟩ := c
      have hb' := hr.ctl.chunkBuf t b' i hc'
      rw [hb] at hb'
      cases hb'
      exact go (.getCheck e) _ rfl (by rw [hp]; simp [Pc.togo])
        (by simp only [St.logStep, hp, hc', hm]; rw [if_pos (by simp)])
  case getCheck e' =>
    cases he
    exact go (.getNull e) s rfl (by rw [hp]; simp [Pc.togo]) (by simp [St.logStep, hp, hen])
  case getNull e' =>
    cases he
    exact go (.getLoad e) s rfl (by rw [hp]; simp [Pc.togo]) (by simp [St.logStep, hp, hb])
  case getLoad e' =>
    cases he
    exact go (.getDo e b) s rfl (by rw [hp]; simp [Pc.togo]) (by simp [St.logStep, hp, hb])
  case getDo e' p =>
    cases he
    have hb' := hr.ctl.ptr t p (by rw [hp]; rfl)
    rw [hb] at hb'
    cases hb'
    rcases hg : (s.heap b).ringClaim (tid t) with ⟨y, _ | i⟩
    · exact go (.getWait e b) (s.setBuf b y) rfl (by rw [hp]; simp [Pc.togo])
        (by simp [St.logStep, hp, hm, h.ring, hg])
    · exact go (.store e) (((s.setBuf b y).loaned t b i).setChunk t (some (b, i))) rfl (by rw [hp]; simp [Pc.togo])
        (by simp [St.logStep, hp, hm, h.ring, hg])
  case getWait e' p =>
    cases he
    have hb' := hr.ctl.ptr t p (by rw [hp]; rfl)
    rw [hb] at hb'
    cases hb'
    obtain ⟨cur, dropped, hpl⟩ := h.placed
    have hcur := hpl.fetch hb (by rw [hp]; rfl)
    subst hcur
    have hcount := hpl.order.count
    have hw := hr.waits t e b hp
    have hlen := (hr.data.bufs b).length_eq
    have hsz : (s.heap b).size = (s.heap b).chunks.length := rfl
    simp at hcount
    cases hq : (s.heap b).queue with
    | nil => rw [hq] at hcount; simp at hcount; omega
    | cons i q =>
      rcases hg : (s.heap b).ringTake (tid t) with _ | ⟨y, j⟩
      · simp [Buffer.ringTake, hq] at hg
      · exact go (.store e) (((s.setBuf b y).loaned t b j).setChunk t (some (b, j))) rfl (by rw [hp]; simp [Pc.togo])
          (by simp [St.logStep, hp, hm, hg])
  case store e' =>
    cases he
    have hc := hr.ctl.needChunk t (by rw [hp]; rfl)
    cases hc' : (s.tenant t).chunk with
    | none => exact absurd hc' hc
    | some c =>
      obtain ⟨b', i⟩ := c
      have hb' := hr.ctl.chunkBuf t b' i hc'
      rw [hb] at hb'
      cases hb'
      obtain ⟨evs, hi'⟩ := hr.data.owns t b i hc'
      obtain ⟨y, k1, _⟩ := (hr.data.bufs b).push hi' (hr.data.room t e b i evs hp hc' hi') e
      exact ⟨((s.setBuf b y).recorded t b i e).goto t .unlock, by simp [St.logStep, hp, hc', hm, k1],
        Or.inl ⟨goto_pc _ _ _, hp⟩⟩

/-- What a step of `logEvent` before the event is stored keeps. -/
theorem logStep_keeps {e : ε} {sp : Bool} (he : (s.pc t).event = some e) (hs : s.logStep tid t sp = .to s') :
    s'.enabled = s.enabled ∧ s'.buffer = s.buffer ∧ (s'.tenant t).initialised = (s.tenant t).initialised := by
  rcases logStep_cases hs with e1 | e1 | ⟨f, g, hp, _⟩ | ⟨f, g, hp, _⟩ | ⟨f, g, hp, _⟩
  · rw [e1]; exact ⟨rfl, rfl, rfl⟩
  · exact ⟨e1.enabled, e1.buffer, e1.init⟩
  · rw [hp] at he; cases he
  · rw [hp] at he; cases he
  · rw [hp] at he; cases he

theorem Ringing.solo {b : Nat} {e : ε} (n : Nat) : ∀ {s : St ε}, (s.pc t).togo ≤ n → Ringing t b s → Reachable true tid s →
    s.enabled = true → s.buffer = some b → 0 < (s.heap b).chunks.length → (s.tenant t).initialised = true →
    (s.pc t).event = some e →
    ∃ m s', m ≤ n + 1 ∧ s.run true tid (List.replicate m (t, .step)) = .to s' ∧ s'.pc t = .idle ∧
      s'.stored b t = s.stored b t ++ [e] ∧ s'.enabled = true ∧ s'.buffer = some b ∧ (s'.tenant t).initialised = true := by
  induction n with
  | zero =>
    intro s h0 _ _ _ _ _ _ he
    exfalso
    cases hp : s.pc t <;> rw [hp] at h0 he <;> first | (cases he; done) | (simp [Pc.togo] at h0)
  | succ n ih =>
    intro s h0 h hr hen hb hpos hi he
    obtain ⟨s1, hs, h1⟩ := h.progress hr hen hb hpos hi he
    have hnext : s.next true tid t .step = .to s1 := step_of_log hs
    have hr1 := hr.step hnext
    obtain ⟨k1, k2, k3⟩ := logStep_keeps he hs
    have hlt := h.lt
    have hshape := (next_bufop hnext b (by omega)).shape
    rcases h1 with ⟨hu, hst⟩ | ⟨he1, hlt1⟩
    · have hfate := logStep_fate hs
      refine ⟨2, (s1.setLock t .unlocked).goto t .idle, by omega, ?_, goto_pc _ _ _, ?_, k1.trans hen, k2.trans hb,
        by simpa [St.goto, St.setLock] using k3.trans hi⟩
      · have h2 : s1.next true tid t .step = .to ((s1.setLock t .unlocked).goto t .idle) :=
          step_of_log (by simp [St.logStep, hu])
        show s.run true tid [(t, .step), (t, .step)] = _
        simp [St.run, hnext, h2]
      · show s1.stored b t = _
        cases hfate with
        | keep he1 _ => rw [hu, hst] at he1; cases he1
        | store e' b' i hp hc hm _ hs1 =>
          rw [hst] at hp
          cases hp
          have hb' := hr.ctl.chunkBuf t b' i hc
          rw [hb] at hb'
          cases hb'
          rw [hs1]; simp
        | drop hd _ _ =>
          exfalso
          rcases hd.why hr.hist hr.ctl0 hr.data with h' | h' | ⟨p, _, _, _, e', h'⟩
          · rw [← hr.hist.en, hen] at h'; cases h'
          · rw [← hr.hist.reg, hi] at h'; cases h'
          · rw [hst] at h'; cases h'
    · obtain ⟨m, s2, m1, m2, m3, m4, m5, m6, m7⟩ := ih (by omega) (h.logStep hr (by
          cases hp : s.pc t <;> rw [hp] at he <;> first | (cases he; done) | rfl) hs) hr1 (k1.trans hen) (k2.trans hb)
        (by rw [hshape.2.1]; exact hpos) (k3.trans hi) he1
      refine ⟨m + 1, s2, by omega, ?_, m3, ?_, m5, m6, m7⟩
      · rw [List.replicate_succ]; exact run_step hnext m2
      · rw [m4]
        congr 1
        cases logStep_fate hs with
        | keep _ hs1 => rw [hs1 b (by omega)]
        | store e' b' i hp hc hm hev hs1 => rw [hev] at he1; cases he1
        | drop _ hev _ => rw [hev] at he1; cases he1

/-- C59: during such a run the thread is never held up, refused or stopped: from any state the
run can come to, with `t` registered and between calls, a call of `logEvent` by `t` on its own
stores its event and returns after at most 15 steps, and tracing is still on. -/
theorem C59_never_stops (h : Reachable true tid s) {o b : Nat} {st : List Frame} (hp : s.pc o = .held .startEnable st)
    (hb : s.buffer = some b) (hm : (s.heap b).mode = .ring) (hq : ∀ u, u ≠ t → (s.pc u).logging = false)
    {l : List (Nat × Choice ε)} (hr : s.run true tid ((o, .step) :: l) = .to s') (hl : OnlyLogger t l)
    (hen : s'.enabled = true) (hb' : s'.buffer = some b) (hreg : isReg t s'.hist = true) (hi : s'.pc t = .idle) (e : ε) :
    ∃ m s'', m ≤ 14 ∧ s'.run true tid ((t, .log e) :: List.replicate m (t, .step)) = .to s'' ∧ s''.pc t = .idle ∧
      s''.stored b t = s'.stored b t ++ [e] ∧ s''.enabled = true ∧ s''.buffer = some b ∧
      isReg t s''.hist = true := by
  have hs : s.next true tid o .step = .to (s.enable.pop o st) := by
    simp [St.next, St.logStep, St.heldStep, hp]
  have hpos : 0 < (s.heap b).chunks.length := by
    have hl := h.ctl.last b hb
    have := (h.sized.enable o (by rw [hp]; rfl)).1.2.1
    rw [show s.nextBuf - 1 = b by omega] at this
    omega
  obtain ⟨q, _, eq⟩ := pop_goto s.enable o st
  simp only [St.run, hs] at hr
  have hring0 := Ringing.begin (t := t) h hp hb hm hq
  have hring := hring0.run (h.step hs) hr hl
  have hreach := run_reachable (h.step hs) hr
  have hlen := (run_counter (h.step hs) hring0.lt hr).2.1
  have hlog : s'.next true tid t (.log e) = .to (s'.goto t (.readEnabled e)) := by
    simp only [St.next, isIdle_iff.2 hi, if_true]
  have hring1 := hring.next hreach hlog (fun _ _ => rfl) (by simp)
  obtain ⟨m, s2, m1, m2, m3, m4, m5, m6, m7⟩ := Ringing.solo (e := e) 13 (by rw [goto_pc]; simp [Pc.togo]) hring1
    (hreach.step hlog) hen hb' (by
      show 0 < (s'.heap b).chunks.length
      rw [hlen, eq]; exact hpos) (by
      show (s'.tenant t).initialised = true
      rw [hreach.hist.reg]; exact hreg) (by rw [goto_pc]; rfl)
  refine ⟨m, s2, m1, run_step hlog m2, m3, m4, m5, m6, ?_⟩
  rw [← (run_reachable (hreach.step hlog) m2).hist.reg]
  exact m7

theorem logged_append (t : Nat) (a b : List (Nat × Choice ε)) : logged t (a ++ b) = logged t a ++ logged t b := by
  simp [logged]

theorem logged_steps (t m : Nat) : logged t (List.replicate m (t, (.step : Choice ε))) = [] := by
  induction m with
  | zero => rfl
  | succ m ih => simp [logged, calls]

/-- C59: in such a run thread `t` can log any number of events, one after the other, and every
one is stored. -/
theorem C59_any_number (h : Reachable true tid s) {o b : Nat} {st : List Frame} (hp : s.pc o = .held .startEnable st)
    (hb : s.buffer = some b) (hm : (s.heap b).mode = .ring) (hq : ∀ u, u ≠ t → (s.pc u).logging = false) (hto : t ≠ o)
    (hi : s.pc t = .idle) (hreg : isReg t s.hist = true) (evs : List ε) :
    ∃ l s', s.run true tid ((o, .step) :: l) = .to s' ∧ OnlyLogger t l ∧ logged t l = evs ∧ s'.stored b t = evs ∧
      s'.pc t = .idle ∧ s'.enabled = true ∧ s'.buffer = some b ∧ isReg t s'.hist = true := by
  have key : ∀ es : List ε, ∃ l s', s.run true tid ((o, .step) :: l) = .to s' ∧ OnlyLogger t l ∧
      logged t l = es.reverse ∧ s'.stored b t = es.reverse ∧
      s'.pc t = .idle ∧ s'.enabled = true ∧ s'.buffer = some b ∧ isReg t s'.hist = true := by
    intro es
    induction es with
    | nil =>
      have hs : s.next true tid o .step = .to (s.enable.pop o st) := by
        simp [St.next, St.logStep, St.heldStep, hp]
      obtain ⟨q, _, eq⟩ := pop_goto s.enable o st
      have hl := h.ctl.last b hb
      have hst := fresh_stored h o (by rw [hp]; rfl)
      rw [show s.nextBuf - 1 = b by omega] at hst
      refine ⟨[], s.enable.pop o st, by simp [St.run, hs], (fun u c hm => by cases hm), rfl, ?_, ?_, ?_, ?_, ?_⟩
      · rw [eq]
        show s.stored b t = _
        rw [hst]; rfl
      · rw [next_pc hs hto]; exact hi
      · rw [eq]; rfl
      · rw [eq]; exact hb
      · rw [eq]; exact hreg
    | cons e es ih =>
      obtain ⟨l, s1, h1, h2, h3, h4, h5, h6, h7, h8⟩ := ih
      obtain ⟨m, s2, m1, m2, m3, m4, m5, m6, m7⟩ := C59_never_stops h hp hb hm hq h1 h2 h6 h7 h8 h5 e
      refine ⟨l ++ (t, .log e) :: List.replicate m (t, .step), s2, ?_, ?_, ?_, ?_, m3, m5, m6, m7⟩
      · rw [← List.cons_append]; exact run_append h1 m2
      · intro u c hm
        rcases List.mem_append.1 hm with hm | hm
        · exact h2 u c hm
        · rcases List.mem_cons.1 hm with hm | hm
          · cases hm; exact ⟨fun _ _ => rfl, fun _ => by simp⟩
          · have := List.eq_of_mem_replicate hm
            cases this
            exact ⟨(fun e h => by cases h), fun _ => by simp⟩
      · rw [logged_append, h3, List.reverse_cons]
        congr 1
        have := logged_steps (ε := ε) t m
        simp only [logged, List.flatMap_cons, if_true, calls] at this ⊢
        rw [this]; rfl
      · rw [m4, h4, List.reverse_cons]
  have := key evs.reverse
  rwa [List.reverse_reverse] at this

theorem check_run {l : List (Nat × Choice Nat)} {p : St Nat → Bool} (h : check pol tid l p = true) :
    ∃ s, (St.init : St Nat).run pol tid l = .to s ∧ p s = true := by
  unfold check at h
  split at h
  · exact ⟨_, by assumption, h⟩
  · cases h

theorem run_pc_away {l : List (Nat × Choice ε)} (hr : s.run pol tid l = .to s') {u : Nat} (hu : ∀ p ∈ l, p.1 ≠ u) :
    s'.pc u = s.pc u := by
  induction l generalizing s with
  | nil => cases hr; rfl
  | cons p l ih =>
    obtain ⟨v, c⟩ := p
    simp only [St.run] at hr
    split at hr
    · rename_i s1 hs
      rw [ih hr (fun p hp => hu p (List.mem_cons_of_mem _ hp)), next_pc hs (Ne.symm (hu (v, c) (by simp)))]
    · cases hr
    · cases hr

/-- A run in ring mode with one chunk is about to begin, thread 1 is registered and nobody logs:
the hypotheses of the theorems above hold, so thread 1 can go round the ring any number of times. -/
example : ∃ s : St Nat, Reachable true (· + 100) s ∧ s.pc 0 = .held .startEnable [.resumeUser] ∧ s.buffer = some 0 ∧
    (s.heap 0).mode = .ring ∧ (s.heap 0).chunks.length = 1 ∧ (∀ u, u ≠ 1 → (s.pc u).logging = false) ∧ s.pc 1 = .idle ∧
    isReg 1 s.hist = true := by
  obtain ⟨s, h1, h2⟩ := check_run (pol := true) (tid := (· + 100)) (p := fun s =>
      s.pc 0 == .held .startEnable [.resumeUser] && s.buffer == some 0 && (s.heap 0).mode == .ring &&
      (s.heap 0).chunks.length == 1 && s.pc 1 == .idle && isReg 1 s.hist)
    (l := registers 1 ['a'] ++ [(0, .lock), (0, .start ring1), (0, .step)]) (by decide +kernel)
  simp only [Bool.and_eq_true, beq_iff_eq] at h2
  obtain ⟨⟨⟨⟨⟨g1, g2⟩, g3⟩, g4⟩, g5⟩, g6⟩ := h2
  refine ⟨s, run_reachable .init h1, g1, g2, g3, g4, fun u hu => ?_, g5, g6⟩
  by_cases h0 : u = 0
  · subst h0; rw [g1]; rfl
  · rw [run_pc_away h1 (u := u) (by simp [registers, steps]; omega)]
    rfl

end Phosphor.TLog
