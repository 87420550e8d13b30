import Verif.Proof.TraceLogEvents
import Verif.Props.TraceLog
import Verif.Props.Buffer
/-
Properties of TraceLog about events (C33, C34, C35, C48), under any number of threads and any
interleaving.
-/
namespace Phosphor.TLog
variable {ε : Type} {tid : Nat → Nat} {s s' : St ε} {t : Nat} {pol : Bool}

/-! ### C34, C48 the events of a trace -/

/-- Reading the buffer from `begin()` to `end()` yields these events and thread ids. -/
def Reads (x : Buffer ε) (evs : List (ε × Nat)) : Prop := ∃ n, ∀ fuel ≥ n, x.iterate fuel = some (.ok evs)

/-- The events with thread id `i`, in order. -/
def ofId (i : Nat) (evs : List (ε × Nat)) : List ε := evs.filterMap (fun p => if p.2 = i then some p.1 else none)

theorem ofId_flatEvents (hinj : ∀ u v, tid u = tid v → u = v) (t : Nat) (cont : List (Nat × List ε)) :
    ofId (tid t) (flatEvents (tagged tid cont)) = eventsOf t cont := by
  induction cont with
  | nil => rfl
  | cons p cont ih =>
    have hc : flatEvents (tagged tid (p :: cont)) = p.2.map (fun e => (e, tid p.1)) ++ flatEvents (tagged tid cont) := by
      simp [flatEvents, tagged]
    have he : eventsOf t (p :: cont) = (if p.1 = t then p.2 else []) ++ eventsOf t cont := by simp [eventsOf]
    rw [hc, he, ← ih]
    unfold ofId
    rw [List.filterMap_append]
    congr 1
    rw [List.filterMap_map]
    by_cases h : p.1 = t
    · rw [if_pos h]
      have : ((fun q : ε × Nat => if q.2 = tid t then some q.1 else none) ∘ fun e => (e, tid p.1)) = some := by
        funext e; simp [h]
      rw [this, List.filterMap_some]
    · rw [if_neg h]
      have h' : tid p.1 ≠ tid t := fun e => h (hinj _ _ e)
      have : ((fun q : ε × Nat => if q.2 = tid t then some q.1 else none) ∘ fun e => (e, tid p.1)) = fun _ => none := by
        funext e; simp [h']
      rw [this]; simp

/-- C48: at every moment, reading a fixed buffer yields for each thread exactly the events it
has stored into it, in order and once each, with its id (ids not being reused). Any callbacks. -/
theorem C48_read (hinj : ∀ u v, tid u = tid v → u = v) (h : Reachable pol tid s) (b : Nat)
    (hm : (s.heap b).mode ≠ .ring) :
    ∃ evs, Reads (s.heap b) evs ∧ ∀ t, ofId (tid t) evs = s.stored b t := by
  refine ⟨flatEvents (tagged tid (s.contents b)), C19_iterate _ _ (h.data.bufs b).holds, fun t => ?_⟩
  rw [ofId_flatEvents hinj, h.data.fixedStored b t hm]

/-- C48: also when ids are reused, or the buffer is a ring: every event read is one stored in
this buffer by a thread with that id. -/
theorem C48_read_sound (h : Reachable pol tid s) (b : Nat) :
    ∃ evs, Reads (s.heap b) evs ∧ ∀ e i, (e, i) ∈ evs → ∃ t, tid t = i ∧ e ∈ s.stored b t := by
  refine ⟨flatEvents (tagged tid (s.contents b)), C19_iterate _ _ (h.data.bufs b).holds, fun e i hm => ?_⟩
  simp only [flatEvents, tagged, List.mem_flatMap, List.mem_map] at hm
  obtain ⟨_, ⟨p, hp, rfl⟩, _, he, heq⟩ := hm
  cases heq
  obtain ⟨j, hj⟩ := List.mem_iff_getElem?.1 hp
  exact ⟨p.1, rfl, (h.data.chunkInfix b j p.1 p.2 hj).subset he⟩

/-- C48: what a thread has stored changes only by its own step that stores the event in hand, and
then exactly by this event. Any callbacks. -/
theorem C48_stored {c : Choice ε} (hs : s.next pol tid t c = .to s') (b u : Nat) (hb : b < s.nextBuf) :
    s'.stored b u = s.stored b u ∨
      (u = t ∧ ∃ e, s.pc t = .store e ∧ s'.stored b u = s.stored b u ++ [e] ∧ (s'.pc t).event = none) := by
  rcases next_fate hs with ⟨e, rfl, hp, rfl⟩ | ⟨hl, hf⟩
  · exact Or.inl rfl
  · cases hf with
    | keep he hst => exact Or.inl (by rw [hst b (by omega)])
    | store e b' i hp hch hm he hst =>
      by_cases h : b = b' ∧ u = t
      · obtain ⟨rfl, rfl⟩ := h
        exact Or.inr ⟨rfl, e, hp, by rw [hst]; simp [setf], he⟩
      · left
        rw [hst]
        simp only [setf]
        split
        · rename_i hb; subst hb
          have : u ≠ t := fun e => h ⟨rfl, e⟩
          simp [setf, this]
        · rfl
    | drop hd he hst => exact Or.inl (by rw [hst])

/-- C34: an event is lost (its call goes on without it, and it is not stored) only if tracing is
off, the thread is not registered, or the thread is just being refused a chunk by the log's
fixed buffer all of whose chunks have been handed out. Any callbacks. -/
theorem C34_lost (h : Reachable pol tid s) {c : Choice ε} (hs : s.next pol tid t c = .to s') {e : ε}
    (he : (s.pc t).event = some e) (he' : (s'.pc t).event = none) :
    (∃ b, s.buffer = some b ∧ s'.stored b t = s.stored b t ++ [e]) ∨
    on s.hist = false ∨ isReg t s.hist = false ∨
    ∃ p, s.buffer = some p ∧ (s.heap p).mode = .fixed ∧ (s.heap p).chunks.length ≤ (s.heap p).counter := by
  rcases next_fate hs with ⟨e, rfl, hp, rfl⟩ | ⟨hl, hf⟩
  · rw [goto_pc] at he'; cases he'
  · cases hf with
    | keep hk hst => rw [hk, he] at he'; cases he'
    | store e' b i hp hch hm _ hst =>
      rw [hp] at he
      cases he
      left
      have : s.status b = .inLog := by
        rcases h.ctl0.chunk t b i hch with h' | h'
        · exact h'
        · simp [St.mapped, h'] at hm
      exact ⟨b, (h.ctl0.status b).1 this, by rw [hst]; simp [setf]⟩
    | drop hd _ hst =>
      rcases hd.why h.hist h.ctl0 h.data with h' | h' | ⟨p, h1, h2, h3, _⟩
      · exact Or.inr (Or.inl h')
      · exact Or.inr (Or.inr (Or.inl h'))
      · exact Or.inr (Or.inr (Or.inr ⟨p, h1, h2, h3⟩))

/-- The events passed to `logEvent` by thread `t` in an execution. -/
def logged (t : Nat) (l : List (Nat × Choice ε)) : List ε :=
  l.flatMap (fun p => if p.1 = t then calls p.2 else [])

theorem next_hist {c : Choice ε} (hs : s.next pol tid t c = .to s') : ∃ new, s'.hist = new ++ s.hist := by
  cases next_book hs with
  | calm new hn ha hd hb hst hh hp _ _ hk => exact ⟨new, hh⟩
  | free b hb e => subst e; exact ⟨[], rfl⟩
  | retrieve cs st hp he e => subst e; exact ⟨[_], rfl⟩
  | create n st hp e => subst e; exact ⟨[], rfl⟩
  | enable st hp e =>
    subst e
    obtain ⟨q, _, e⟩ := pop_goto s.enable t st
    rw [e]; exact ⟨[_], rfl⟩
  | reg n hp hi e =>
    subst e
    refine ⟨[.regOk t n], ?_⟩
    simp only [St.goto, St.registerBody, hi]
    split
    · contradiction
    · split <;> rfl
  | dereg x hp hi hx e =>
    subst e
    obtain ⟨hp', rfl⟩ := deregisterBody_eq hi hx
    exact ⟨[_], rfl⟩

theorem run_hist {l : List (Nat × Choice ε)} (hr : s.run pol tid l = .to s') : ∃ new, s'.hist = new ++ s.hist := by
  induction l generalizing s with
  | nil => cases hr; exact ⟨[], rfl⟩
  | cons p l ih =>
    obtain ⟨t, c⟩ := p
    simp only [St.run] at hr
    split at hr
    · rename_i s1 hs
      obtain ⟨n1, h1⟩ := next_hist hs
      obtain ⟨n2, h2⟩ := ih hr
      exact ⟨n2 ++ n1, by rw [h2, h1, List.append_assoc]⟩
    · cases hr
    · cases hr

theorem on_keep {new h : List Item} (hn : ∀ sh full, Item.stop sh full ∉ new) (ho : on h = true) :
    on (new ++ h) = true := by
  induction new with
  | nil => exact ho
  | cons i new ih =>
    have ih := ih (fun a b hm => hn a b (by simp [hm]))
    cases i with
    | stop a b => exact absurd (by simp) (hn a b)
    | run b c => rfl
    | _ => exact ih

theorem isReg_keep {new h : List Item} (hn : Item.deregOk t ∉ new) (ho : isReg t h = true) :
    isReg t (new ++ h) = true := by
  induction new with
  | nil => exact ho
  | cons i new ih =>
    have ih := ih (fun hm => hn (by simp [hm]))
    cases i with
    | regOk u n =>
      simp only [List.cons_append, isReg]
      split
      · rfl
      · exact ih
    | deregOk u =>
      have : u ≠ t := by rintro rfl; exact hn (by simp)
      simp only [List.cons_append, isReg, if_neg this]; exact ih
    | _ => exact ih

theorem buffer_keep (h : Reachable true tid s) {c : Choice ε} (hs : s.next true tid t c = .to s')
    (he : s.enabled = true) : s'.buffer = s.buffer ∧ s.nextBuf ≤ s'.nextBuf := by
  cases next_book hs with
  | calm new hn ha hd hb hst hh hp _ _ hk => exact ⟨hb, by omega⟩
  | free b hb e => subst e; exact ⟨rfl, Nat.le_refl _⟩
  | retrieve cs st hp he' e => rw [he] at he'; cases he'
  | create n st hp e =>
    have := h.ctl.off t (by rw [hp]; rfl)
    rw [he] at this; cases this
  | enable st hp e =>
    have := h.ctl.off t (by rw [hp]; rfl)
    rw [he] at this; cases this
  | reg n hp hi e =>
    subst e
    obtain ⟨e1, _, e3, _⟩ := registerBody_frame (s := s) (tid := tid) (t := t) n
    exact ⟨e3, Nat.le_of_eq e1.symm⟩
  | dereg x hp hi hx e =>
    subst e
    obtain ⟨hp', rfl⟩ := deregisterBody_eq hi hx
    exact ⟨rfl, Nat.le_refl _⟩

theorem nextBuf_mono {c : Choice ε} (hs : s.next pol tid t c = .to s') : s.nextBuf ≤ s'.nextBuf := by
  cases next_book hs with
  | calm new hn => omega
  | free b hb e => subst e; exact Nat.le_refl _
  | retrieve cs st hp he' e => subst e; exact Nat.le_refl _
  | create n st hp e => subst e; exact Nat.le_succ _
  | enable st hp e =>
    subst e
    obtain ⟨q, _, e⟩ := pop_goto s.enable t st
    rw [e]; exact Nat.le_refl _
  | reg n hp hi e =>
    subst e
    obtain ⟨e1, _⟩ := registerBody_frame (s := s) (tid := tid) (t := t) n
    exact Nat.le_of_eq e1.symm
  | dereg x hp hi hx e =>
    subst e
    obtain ⟨hp', rfl⟩ := deregisterBody_eq hi hx
    exact Nat.le_refl _

theorem run_counter {l : List (Nat × Choice ε)} {b : Nat} (h : Reachable pol tid s) (hb : b < s.nextBuf)
    (hr : s.run pol tid l = .to s') :
    (s.heap b).counter ≤ (s'.heap b).counter ∧ (s'.heap b).chunks.length = (s.heap b).chunks.length ∧
    (s'.heap b).mode = (s.heap b).mode := by
  induction l generalizing s with
  | nil => cases hr; exact ⟨Nat.le_refl _, rfl, rfl⟩
  | cons p l ih =>
    obtain ⟨t, c⟩ := p
    simp only [St.run] at hr
    split at hr
    · rename_i s1 hs
      have h1 := next_bufop hs b (by omega)
      have hn := nextBuf_mono hs
      obtain ⟨h2, h3, h4⟩ := ih (h.step hs) (by omega) hr
      exact ⟨Nat.le_trans h1.counter h2, h3.trans h1.shape.2.1, h4.trans h1.shape.2.2⟩
    · cases hr
    · cases hr

/-- C34: in any execution by any threads during which tracing is not stopped, thread `t` stays
registered and nobody is refused a chunk (which never happens in a ring), the events passed to
`logEvent` by `t` are stored in the log's buffer in that order (the last one may still be in
hand). -/
theorem C34_stored (h : Reachable true tid s) {l : List (Nat × Choice ε)} (hr : s.run true tid l = .to s')
    (hon : s.enabled = true) (hreg : isReg t s.hist = true) {b : Nat} (hb : s.buffer = some b)
    {new : List Item} (hh : s'.hist = new ++ s.hist) (hns : ∀ sh full, Item.stop sh full ∉ new)
    (hnd : Item.deregOk t ∉ new)
    (hf : (s'.heap b).mode = .ring ∨ (s'.heap b).counter ≤ (s'.heap b).chunks.length) :
    s'.stored b t ++ (s'.pc t).event.toList = s.stored b t ++ (s.pc t).event.toList ++ logged t l := by
  induction l generalizing s new with
  | nil => cases hr; simp [logged]
  | cons p l ih =>
    obtain ⟨u, c⟩ := p
    simp only [St.run] at hr
    split at hr
    · rename_i s1 hs
      have h1 := h.step hs
      obtain ⟨n1, e1⟩ := next_hist hs
      obtain ⟨n2, e2⟩ := run_hist hr
      have hnew : new = n2 ++ n1 := by
        rw [e2, e1, ← List.append_assoc] at hh
        exact (List.append_cancel_right hh).symm
      subst hnew
      have hon1 : on s1.hist = true := by
        rw [e1]
        exact on_keep (fun a b hm => hns a b (by simp [hm])) (by rw [← h.hist.en]; exact hon)
      have hreg1 : isReg t s1.hist = true := by
        rw [e1]; exact isReg_keep (fun hm => hnd (by simp [hm])) hreg
      obtain ⟨hb1, hn1⟩ := buffer_keep h hs hon
      have hlast := h.ctl.last b hb
      obtain ⟨c1, c2, c3⟩ := run_counter h1 (b := b) (by omega) hr
      have step := complete_step (t := t) h.hist h.ctl0 h.data hs (by rw [← h.hist.en]; exact hon) hreg hb
        (hf.imp (fun hm => by rw [← c3]; exact hm) (fun hm => by omega))
      have rest := ih h1 hr (by rw [h1.hist.en]; exact hon1) hreg1 (by rw [hb1]; exact hb) e2
        (fun a b hm => hns a b (by simp [hm])) (fun hm => hnd (by simp [hm]))
      rw [rest, step]
      simp [logged]
    · cases hr
    · cases hr

/-- C34, C48: in every execution whatever, what a thread has stored in a buffer is a subsequence
of what it has passed to `logEvent`: nothing is invented, repeated or reordered. Any callbacks. -/
theorem C34_subsequence (h : Reachable pol tid s) {l : List (Nat × Choice ε)} (hr : s.run pol tid l = .to s')
    {b : Nat} (hb : b < s.nextBuf) :
    (s'.stored b t ++ (s'.pc t).event.toList).Sublist (s.stored b t ++ (s.pc t).event.toList ++ logged t l) := by
  induction l generalizing s with
  | nil => cases hr; simp [logged]
  | cons p l ih =>
    obtain ⟨u, c⟩ := p
    simp only [St.run] at hr
    split at hr
    · rename_i s1 hs
      have hn := nextBuf_mono hs
      have rest := ih (h.step hs) hr (by omega)
      have hl : logged t ((u, c) :: l) = (if u = t then calls c else []) ++ logged t l := by simp [logged]
      rw [hl, ← List.append_assoc]
      refine rest.trans (List.Sublist.append_right ?_ _)
      by_cases hu : u = t
      · subst hu
        rw [if_pos rfl]
        rcases next_fate hs with ⟨e, rfl, hp, rfl⟩ | ⟨hl, hfate⟩
        · rw [goto_pc, hp]; simp [St.goto, Pc.event, calls]
        · refine List.Sublist.trans ?_ (List.sublist_append_left _ _)
          cases hfate with
          | keep he hst => rw [he, hst b (by omega)]; exact List.Sublist.refl _
          | store e b' i hp hch hm he hst =>
            rw [he, hst, hp]
            by_cases hb' : b = b'
            · subst hb'; simp [setf, Pc.event]
            · simp [setf, hb', Pc.event]
          | drop hdr he hst => rw [he, hst]; simp
      · rw [if_neg hu, List.append_nil, next_pc hs (Ne.symm hu)]
        rcases C48_stored hs b t hb with e | ⟨e, _⟩
        · rw [e]; exact List.Sublist.refl _
        · exact absurd e.symm hu
    · cases hr
    · cases hr

theorem fresh_stored (h : Reachable true tid s) : ∀ o, (s.pc o).isEnable = true →
    s.stored (s.nextBuf - 1) = fun _ => [] := by
  induction h with
  | init => intro o ho; cases ho
  | step hr hs ih =>
    rename_i s s' t c
    intro o ho
    have quiet : s'.nextBuf = s.nextBuf → (s.pc o).isEnable = true → s'.stored (s'.nextBuf - 1) = fun _ => [] := by
      intro hn hp
      rw [hn]
      have h0 := ih o hp
      have hpos := hr.runs.pos o hp
      funext u
      rcases C48_stored hs (s.nextBuf - 1) u (by omega) with e | ⟨rfl, e, he, _⟩
      · rw [e, h0]
      · exfalso
        obtain ⟨k1, k2, k3, _⟩ := Pc.isEnable_spec _ hp
        have hoff := hr.ctl.off o k3
        have hown := (hr.ctl.own o).2 k1
        rcases hr.ctl.comm u (Or.inr (by rw [he]; rfl)) with h' | h'
        · rw [hoff] at h'; cases h'
        · unfold St.pend at h'
          rw [hown] at h'
          dsimp only at h'
          rw [k2] at h'
          cases h'
    cases next_book hs with
    | calm new hn ha hd hb hst hh hp _ _ hk => exact quiet hn (hk o ho)
    | free b hb e => subst e; exact quiet rfl ho
    | retrieve cs st hp he' e => subst e; exact quiet rfl ho
    | create n st hp e => subst e; funext u; simp [St.goto, St.createBuffer]
    | enable st hp e =>
      subst e
      obtain ⟨q, hq, e⟩ := pop_goto s.enable t st
      rw [e] at ho ⊢
      by_cases hot : o = t
      · subst hot; rw [goto_pc, hq.2.2] at ho; cases ho
      · rw [goto_other _ _ _ _ hot] at ho
        have h1 := (hr.ctl.own o).2 (Pc.isEnable_spec _ ho).1
        have h2 := (hr.ctl.own t).2 (by rw [hp]; rfl)
        rw [h1] at h2
        cases h2
        exact absurd rfl hot
    | reg n hp hi e =>
      subst e
      obtain ⟨e1, _⟩ := registerBody_frame (s := s) (tid := tid) (t := t) n
      refine quiet e1 ?_
      by_cases hot : o = t
      · subst hot; rw [goto_pc] at ho; cases ho
      · rw [← next_pc hs hot]; exact ho
    | dereg x hp hi hx e =>
      subst e
      obtain ⟨hp', rfl⟩ := deregisterBody_eq hi hx
      refine quiet rfl ?_
      by_cases hot : o = t
      · subst hot; rw [goto_pc] at ho; cases ho
      · rw [← next_pc hs hot]; exact ho

/-- C34: when a run begins its buffer holds no events of any thread. -/
theorem C34_begins (h : Reachable true tid s) {st : List Frame} (hp : s.pc t = .held .startEnable st) :
    ∃ s' b, s.next true tid t .step = .to s' ∧ s'.buffer = some b ∧ s'.enabled = true ∧
      ∀ u, s'.stored b u = [] := by
  have hs : s.next true tid t .step = .to (s.enable.pop t st) := by
    simp [St.next, St.logStep, St.heldStep, hp]
  obtain ⟨q, _, e⟩ := pop_goto s.enable t st
  have hb : ∃ b, s.buffer = some b := by
    have := h.ctl.hasBuf' t (by rw [hp]; rfl)
    cases hb : s.buffer
    · exact absurd hb this
    · exact ⟨_, rfl⟩
  obtain ⟨b, hb⟩ := hb
  have hl := h.ctl.last b hb
  refine ⟨_, b, hs, by rw [e]; exact hb, by rw [e]; rfl, fun u => ?_⟩
  rw [e]
  have := fresh_stored h t (by rw [hp]; rfl)
  rw [show s.nextBuf - 1 = b by omega] at this
  show s.stored b u = []
  rw [this]

/-- C34: a run begins (state `s`, by thread `o`); thread `t` is registered, between calls, and
stays registered; any threads do anything until `s'`, where the run has not been stopped, nobody
has been refused a chunk, and `t` is between calls again. Then reading the buffer yields for
thread `t` exactly the events it logged, in order. -/
theorem C34_complete (hinj : ∀ u v, tid u = tid v → u = v) (h : Reachable true tid s) {o : Nat} {st : List Frame}
    (hp : s.pc o = .held .startEnable st) (ho : t ≠ o) (hi : (s.pc t).event = none) (hreg : isReg t s.hist = true)
    {l : List (Nat × Choice ε)} (hr : s.run true tid ((o, .step) :: l) = .to s') {new : List Item} {b : Nat}
    {cfg : TraceConfig} (hh : s'.hist = new ++ .run b cfg :: s.hist) (hns : ∀ sh full, Item.stop sh full ∉ new)
    (hnd : Item.deregOk t ∉ new) (hm : (s'.heap b).mode ≠ .ring)
    (hf : (s'.heap b).counter ≤ (s'.heap b).chunks.length) (hi' : (s'.pc t).event = none) :
    ∃ evs, Reads (s'.heap b) evs ∧ ofId (tid t) evs = logged t l := by
  obtain ⟨evs, h1, h2⟩ := C48_read hinj (run_reachable h hr) b hm
  refine ⟨evs, h1, ?_⟩
  rw [h2]
  obtain ⟨s1, b1, hs, hb, hon, hst⟩ := C34_begins h hp
  have e1 : s1.hist = .run (s.nextBuf - 1) s.config :: s.hist := by
    have hs' : s.next true tid o .step = .to (s.enable.pop o st) := by
      simp [St.next, St.logStep, St.heldStep, hp]
    rw [hs] at hs'
    cases hs'
    obtain ⟨q, _, e⟩ := pop_goto s.enable o st
    rw [e]; rfl
  simp only [St.run, hs] at hr
  have hb1 : b1 = s.nextBuf - 1 := by
    have h1 := (h.step hs).ctl.last b1 hb
    have h2 : s1.nextBuf = s.nextBuf := by
      have hs' : s.next true tid o .step = .to (s.enable.pop o st) := by
        simp [St.next, St.logStep, St.heldStep, hp]
      rw [hs] at hs'
      cases hs'
      obtain ⟨q, _, e⟩ := pop_goto s.enable o st
      rw [e]; rfl
    omega
  obtain ⟨n2, e2⟩ := run_hist hr
  have : n2 ++ .run (s.nextBuf - 1) s.config :: s.hist = new ++ .run b cfg :: s.hist := by
    rw [← hh, e2, e1]
  have hlen : n2.length = new.length := by
    have := congrArg List.length this
    simp at this; exact this
  obtain ⟨rfl, h4⟩ := List.append_inj this hlen
  cases h4
  have hreg1 : isReg t s1.hist = true := by rw [e1]; exact hreg
  have key := C34_stored (t := t) (h.step hs) hr hon hreg1 hb (new := n2) e2 hns hnd (Or.inr (by rw [hb1]; exact hf))
  rw [hst, hi', next_pc hs ho, hi, hb1] at key
  simpa using key

/-- Two threads log through two runs of steps; both have two events in the trace. -/
example : ∃ s : St Nat, Reachable true (· + 100) s ∧ ((s.heap 0).iterate 10 == some (.ok [(6, 102), (5, 101), (7, 101)]) &&
    s.stored 0 1 == [5, 7] && s.stored 0 2 == [6] && s.enabled && s.pc 1 == .idle && s.pc 2 == .idle) = true :=
  check_sound (l := registers 1 ['a'] ++ registers 2 ['b'] ++ starts fixed2 ++ (1, .log 5) :: steps 1 8 ++
    (2, .log 6) :: steps 2 9 ++ steps 1 3 ++ (1, .log 7) :: steps 1 6 ++ steps 2 2) (by decide +kernel)

theorem run_step {s1 : St ε} {c : Choice ε} {l : List (Nat × Choice ε)} (h : s.next pol tid t c = .to s1)
    (h' : s1.run pol tid l = .to s') : s.run pol tid ((t, c) :: l) = .to s' := by
  simp only [St.run, h]; exact h'

/-! ### C33 who records -/

/-- C33: a thread that is not registered holds no chunk. Any callbacks. -/
theorem C33_no_chunk (h : Reachable pol tid s) (hr : isReg t s.hist = false) : (s.tenant t).chunk = none := by
  cases hc : (s.tenant t).chunk with
  | none => rfl
  | some c =>
    have := h.ctl0.chunkInit t (by rw [hc]; simp)
    rw [h.hist.reg, hr] at this
    cases this

/-- C33: `logEvent` while tracing is disabled reads `enabled` and returns: the state is exactly
the same. -/
theorem C33_disabled (hp : s.pc t = .idle) (he : s.enabled = false) (e : ε) :
    s.run pol tid [(t, .log e), (t, .step)] = .to s := by
  have h1 : s.isIdle t = true := isIdle_iff.2 hp
  have h2 : ((s.goto t (.readEnabled e)).enabled) = false := he
  simp only [St.run, St.next, h1, if_true, St.logStep, goto_pc, h2]
  simp only [Bool.false_eq_true, if_false]
  rw [goto_goto, goto_same hp]

theorem gen_init (h : Reachable pol tid s) : ∀ u, (s.pc u).gen ≠ none → isReg u s.hist = true := by
  induction h with
  | init => intro u hu; exact absurd rfl hu
  | step hr hs ih =>
    rename_i s s' t c
    intro u hu
    have hu0 : (s.pc u).gen ≠ none ∨ ∃ f, s.pc u = .failed f := by
      by_cases hut : u = t
      · subst hut
        exact next_gen hs hu
      · rw [next_pc hs hut] at hu; exact Or.inl hu
    have hreg : isReg u s.hist = true := by
      rcases hu0 with h' | ⟨f, hf⟩
      · exact ih u h'
      · rw [← hr.hist.reg]; exact hr.ctl0.pastInit u (by rw [hf]; rfl)
    cases next_book hs with
    | calm new hn ha hd hb hst hh hp _ _ hk =>
      rw [hh]
      refine isReg_keep (fun hm => ?_) hreg
      have := hp _ hm
      cases this
    | free b hb e => subst e; exact hreg
    | retrieve cs st hp he' e => subst e; exact hreg
    | create n st hp e => subst e; exact hreg
    | enable st hp e =>
      subst e
      obtain ⟨q, hq, e⟩ := pop_goto s.enable t st
      rw [e]; exact hreg
    | reg n hp hi e =>
      have hut : u ≠ t := by
        rintro rfl
        rw [hp] at hu0
        rcases hu0 with h' | ⟨f, hf⟩
        · exact h' rfl
        · cases hf
      have := (hr.step hs).hist.reg u
      rw [← this]
      subst e
      have e1 : ((s.registerBody tid t n).tenant u) = s.tenant u := by
        unfold St.registerBody
        split
        · rfl
        · dsimp only; split <;> simp [setf, hut]
      show ((s.registerBody tid t n).tenant u).initialised = true
      rw [e1, hr.hist.reg]; exact hreg
    | dereg x hp hi hx e =>
      have hut : u ≠ t := by
        rintro rfl
        rw [hp] at hu0
        rcases hu0 with h' | ⟨f, hf⟩
        · exact h' rfl
        · cases hf
      subst e
      obtain ⟨hp', rfl⟩ := deregisterBody_eq hi hx
      show isReg u (.deregOk t :: s.hist) = true
      simp only [isReg, if_neg (Ne.symm hut)]; exact hreg

/-- C33: a step of `logEvent` by a thread that is not registered changes nothing but the thread's
own position and lock. Any callbacks. -/
theorem C33_unregistered (h : Reachable pol tid s) (hr : isReg t s.hist = false) (hl : (s.pc t).logging = true)
    {sp : Bool} (hs : s.logStep tid t sp = .to s') : ∃ lk q, s' = (s.setLock t lk).goto t q := by
  have same : ∀ q, s.goto t q = (s.setLock t (s.tenant t).lock).goto t q := by
    intro q
    have : s.setLock t (s.tenant t).lock = s := by
      unfold St.setLock
      have : setf s.tenant t { s.tenant t with lock := (s.tenant t).lock } = s.tenant := by
        funext u; simp only [setf]; split <;> simp_all
      rw [this]
    rw [this]
  have hi : (s.tenant t).initialised = false := by rw [h.hist.reg]; exact hr
  have hpi : (s.pc t).pastInit = false := by
    cases hp : (s.pc t).pastInit
    · rfl
    · have := h.ctl0.pastInit t hp; rw [hi] at this; cases this
  have hg : (s.pc t).gen = none := by
    cases hp : (s.pc t).gen
    · rfl
    · have := gen_init h t (by rw [hp]; simp); rw [hr] at this; cases this
  unfold St.logStep at hs
  split at hs
  case h_19 => cases hs
  all_goals rename_i hp
  all_goals rw [hp] at hpi hg hl
  all_goals try (cases hpi; done)
  · cases hs; exact ⟨_, _, same _⟩
  · split at hs
    · cases hs; exact ⟨_, _, rfl⟩
    · cases hs; exact ⟨_, _, same _⟩
    · cases hs; exact ⟨_, _, (goto_same hp).symm.trans (same _)⟩
  · cases hs; exact ⟨_, _, same _⟩
  · cases hg
  · cases hg
  · cases hl
  · cases hs; exact ⟨_, _, rfl⟩

/-- C33: and when it has the processor to itself the call leaves the state exactly as it was. -/
theorem C33_unregistered_call (h : Reachable pol tid s) (hr : isReg t s.hist = false) (hp : s.pc t = .idle)
    (he : s.enabled = true) (e : ε) : s.run pol tid ((t, .log e) :: List.replicate 4 (t, .step)) = .to s := by
  have h1 : s.isIdle t = true := isIdle_iff.2 hp
  have hi : (s.tenant t).initialised = false := by rw [h.hist.reg]; exact hr
  have hlk : (s.tenant t).lock = .unlocked := by
    cases hl : (s.tenant t).lock with
    | unlocked => rfl
    | slaveLocked => have := (h.ctl0.slave t).1 hl; rw [hp] at this; cases this
    | masterLocked => have := master_off h.hist h.ctl0 hl; rw [he] at this; cases this
  refine run_step (s1 := s.goto t (.readEnabled e)) (by simp [St.next, h1]) ?_
  refine run_step (s1 := s.goto t (.tryLock e)) ?_ ?_
  · simp only [St.next, St.logStep, goto_pc, goto_goto]
    rw [show (s.goto t (Pc.readEnabled e)).enabled = true from he]; rfl
  refine run_step (s1 := (s.setLock t .slaveLocked).goto t (.checkInit e)) ?_ ?_
  · simp only [St.next, St.logStep, goto_pc]
    rw [show ((s.goto t (Pc.tryLock e)).tenant t).lock = .unlocked from hlk]
    exact congrArg Out.to (goto_goto (s.setLock t .slaveLocked) t _ _)
  refine run_step (s1 := (s.setLock t .slaveLocked).goto t .unlock) ?_ ?_
  · simp only [St.next, St.logStep, goto_pc]
    rw [show (((s.setLock t .slaveLocked).goto t (Pc.checkInit e)).tenant t).initialised = false by
      simpa [St.goto, St.setLock] using hi]
    exact congrArg Out.to (goto_goto _ t _ _)
  refine run_step (s1 := s) ?_ rfl
  simp only [St.next, St.logStep, goto_pc]
  congr 1
  refine Eq.trans ?_ (goto_same hp)
  unfold St.setLock St.goto
  have : setf (setf s.tenant t { s.tenant t with lock := .slaveLocked }) t
      { setf s.tenant t { s.tenant t with lock := .slaveLocked } t with lock := .unlocked } = s.tenant := by
    funext u
    by_cases hu : u = t
    · subst hu; simp [← hlk]
    · simp [setf, hu]
  rw [this]
  simp only [St.mk.injEq, and_true, true_and]
  funext u
  by_cases hu : u = t <;> simp [setf, hu]

/-- Thread 2 is not registered: its event leaves no trace. -/
example : ∃ s : St Nat, Reachable true id s ∧ (s.contents 0 == [(1, [5])] && (s.tenant 2).chunk == none &&
    s.pc 2 == .idle && s.enabled) = true :=
  check_sound (l := registers 1 ['a'] ++ starts fixed1 ++ (2, .log 6) :: steps 2 2 ++ (1, .log 5) :: steps 1 11 ++
    steps 2 2) (by decide +kernel)

end Phosphor.TLog
