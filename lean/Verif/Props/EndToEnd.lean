import Verif.Props.TraceLogRing
import Verif.Props.Export
import Verif.Props.Macros
/-
C69: from the trace macros to the exported document. The log is `TLog.St Event`, the exporter reads
the buffer the log handed out.
-/
namespace Phosphor.TLog
open Json
variable {tid : Nat → Nat} {s s1 s2 s3 : St Event} {pol : Bool}

/-! ### C69 The exported document is the trace -/

/-- The events a trace may contain: those being logged when the run begins and those logged
afterwards. -/
def Offered (s : St Event) (l : List (Nat × Choice Event)) (u : Nat) (e : Event) : Prop :=
  (s.pc u).event = some e ∨ e ∈ logged u l

/-- A JSON document that lists the names and the events `vs`, each tagged with its thread id. -/
def Lists (pid : Int) (names : List (Nat × Str)) (vs : List (Nat × JVal)) (text : Str) : Prop :=
  Value (.obj [("traceEvents".toList, .arr (names.map (nameObject pid) ++ vs.map (·.2)))]) text

/-- The objects of a thread, in the order of the document. -/
def objectsOf (i : Nat) (vs : List (Nat × JVal)) : List JVal :=
  vs.filterMap (fun p => if p.1 = i then some p.2 else none)

theorem stored_prefix (l : List (Nat × Choice Event)) {s s' : St Event} (hr : s.run pol tid l = .to s')
    {b : Nat} (hb : b < s.nextBuf) (t : Nat) : s.stored b t <+: s'.stored b t := by
  induction l generalizing s with
  | nil => cases hr; exact List.prefix_refl _
  | cons p l ih =>
    obtain ⟨u, c⟩ := p
    simp only [St.run] at hr
    split at hr
    · rename_i s1 hs
      have hn := nextBuf_mono hs
      refine List.IsPrefix.trans ?_ (ih hr (by omega))
      rcases C48_stored hs b t hb with e | ⟨_, e, _, h, _⟩
      · rw [e]
      · rw [h]; exact List.prefix_append _ _
    · cases hr
    · cases hr

theorem run_nextBuf (l : List (Nat × Choice Event)) {s s' : St Event} (hr : s.run pol tid l = .to s')
    {b : Nat} (hb : b < s.nextBuf) : b < s'.nextBuf := by
  induction l generalizing s with
  | nil => cases hr; exact hb
  | cons p l ih =>
    obtain ⟨u, c⟩ := p
    simp only [St.run] at hr
    split at hr
    · rename_i s1 hs
      have hn := nextBuf_mono hs
      exact ih hr (by omega)
    · cases hr
    · cases hr

theorem contexts_keep (l : List (Nat × Choice Event)) {s s' : St Event} (hr : s.run pol tid l = .to s') :
    ∀ x ∈ s.contexts, x ∈ s'.contexts := by
  induction l generalizing s with
  | nil => cases hr; exact fun _ h => h
  | cons p l ih =>
    obtain ⟨u, c⟩ := p
    simp only [St.run] at hr
    split at hr
    · rename_i s1 hs
      intro x hx
      refine ih hr x ?_
      cases next_book hs with
      | calm _ _ _ _ _ _ _ _ hc _ _ => rw [hc]; exact hx
      | free b hb e => subst e; exact hx
      | retrieve cs st hp he e hc =>
        subst e
        rcases hc with rfl | rfl
        · exact hx
        · exact List.mem_cons_of_mem _ hx
      | create n st hp e => subst e; exact hx
      | enable st hp e =>
        obtain ⟨q, _, e'⟩ := pop_goto s.enable u st
        rw [e'] at e; subst e; exact hx
      | reg n hp hi e =>
        subst e
        unfold St.registerBody
        split
        · exact hx
        · dsimp only; split <;> exact hx
      | dereg y hp hi hy e =>
        subst e
        obtain ⟨_, rfl⟩ := deregisterBody_eq hi hy
        exact hx
    · cases hr
    · cases hr

/-- What the tagged objects of a thread are, given what all objects are. -/
theorem objectsOf_of {pid : Int} {evs : List (Event × Nat)} {vs : List JVal}
    (h : List.Forall₂ (fun p v => EventDenotes p.1 pid (BitVec.ofNat 32 p.2) v) evs vs) (i : Nat) :
    List.Forall₂ (fun e v => EventDenotes e pid (BitVec.ofNat 32 i) v) (ofId i evs)
      (objectsOf i ((evs.map (·.2)).zip vs)) := by
  induction h with
  | nil => exact .nil
  | cons hp _ ih =>
    rename_i p v evs vs _
    unfold ofId objectsOf at *
    simp only [List.map_cons, List.zip_cons_cons, List.filterMap_cons]
    by_cases hi : p.2 = i
    · rw [if_pos hi, if_pos hi]
      exact .cons (by rw [← hi]; exact hp) ih
    · rw [if_neg hi, if_neg hi]; exact ih

theorem zip_snd {α β γ : Type} {R : α → β → Prop} {l : List α} {vs : List β} (h : List.Forall₂ R l vs)
    (f : α → γ) : ((l.map f).zip vs).map (·.2) = vs := by
  induction h with
  | nil => rfl
  | cons _ _ ih => simp [ih]

theorem zip_mem {α β γ : Type} {R : α → β → Prop} {l : List α} {vs : List β} (h : List.Forall₂ R l vs)
    (f : α → γ) : ∀ q ∈ (l.map f).zip vs, ∃ a ∈ l, f a = q.1 ∧ R a q.2 := by
  induction h with
  | nil => intro q hq; cases hq
  | cons ha _ ih =>
    intro q hq
    rcases List.mem_cons.1 hq with rfl | hq
    · exact ⟨_, by simp, rfl, ha⟩
    · obtain ⟨a, h1, h2⟩ := ih q hq
      exact ⟨a, by simp [h1], h2⟩

/-- C69, the core: a run begins in `s` by thread `o`; `s1` is a later moment, of the same run where
so said; `s2` any later moment. A context made of the buffer of the run exports, piece by piece of
whatever sizes, to one JSON document. It lists, besides the names, objects each of which denotes an
event that a thread with its id logged. If the buffer is a fixed one that did not run out, then for
every thread that was registered and between calls when the run began, stayed registered, was between
calls in `s1` and logs nothing afterwards, the objects of the thread denote exactly the events it
logged, in order. -/
theorem C69_document (hinj : ∀ u v, tid u = tid v → u = v) (h : Reachable true tid s) {o : Nat}
    {st : List Frame} (hp : s.pc o = .held .startEnable st)
    {l1 l2 : List (Nat × Choice Event)} (hr1 : s.run true tid ((o, .step) :: l1) = .to s1)
    {new : List Item} {b : Nat} {cfg : TraceConfig} (hh : s1.hist = new ++ .run b cfg :: s.hist)
    (hr2 : s1.run true tid l2 = .to s2)
    (hrep : ∀ u e, Offered s (l1 ++ l2) u e → Representable e)
    (pid : Int) (ctx : TraceContext) (hctx : ctx.buffer = some (s2.heap b))
    (hnames : ∀ a ∈ ctx.threadNames, NameRepresentable a) :
    ∃ contents vs, ctx.Holds pid contents ∧
      Lists pid ctx.threadNames vs (document pid ctx.threadNames (flatEvents contents)) ∧
      (∀ q ∈ vs, ∃ u e, tid u = q.1 ∧ Offered s (l1 ++ l2) u e ∧
        EventDenotes e pid (BitVec.ofNat 32 q.1) q.2) ∧
      ((∀ sh full, Item.stop sh full ∉ new) → (s1.heap b).counter ≤ (s1.heap b).chunks.length →
        (s2.heap b).mode ≠ .ring → ∀ t, t ≠ o → (s.pc t).event = none → isReg t s.hist = true → Item.deregOk t ∉ new →
        (s1.pc t).event = none → logged t l2 = [] →
        List.Forall₂ (fun e v => EventDenotes e pid (BitVec.ofNat 32 (tid t)) v) (logged t l1)
          (objectsOf (tid t) vs)) := by
  obtain ⟨s0, b0, hs0, hb0, hon0, hst0⟩ := C34_begins h hp
  have hs0' : s.next true tid o .step = .to (s.enable.pop o st) := by
    simp [St.next, St.logStep, St.heldStep, hp]
  have h0 := h.step hs0
  have hr01 : s0.run true tid l1 = .to s1 := by
    simp only [St.run, hs0] at hr1; exact hr1
  have hr02 : s0.run true tid (l1 ++ l2) = .to s2 := run_append hr01 hr2
  have h1 := run_reachable h0 hr01
  have h2 := run_reachable h1 hr2
  -- the buffer of the run
  obtain ⟨n2, e2⟩ := run_hist hr01
  have hst : s0.hist = .run (s.nextBuf - 1) s.config :: s.hist ∧ s0.nextBuf = s.nextBuf := by
    rw [hs0] at hs0'; cases hs0'
    obtain ⟨q, _, e⟩ := pop_goto s.enable o st
    rw [e]; exact ⟨rfl, rfl⟩
  have hlast := h0.ctl.last b0 hb0
  have hb1 : b0 = s.nextBuf - 1 := by have := hst.2; omega
  have heq : n2 ++ .run (s.nextBuf - 1) s.config :: s.hist = new ++ .run b cfg :: s.hist := by
    rw [← hh, e2, hst.1]
  have hlen : n2.length = new.length := by
    have := congrArg List.length heq
    simp at this; exact this
  obtain ⟨rfl, h4⟩ := List.append_inj heq hlen
  cases h4
  rw [← hb1] at *
  have hbn : b0 < s0.nextBuf := by omega
  have hoff : ∀ u e, e ∈ s2.stored b0 u → Offered s (l1 ++ l2) u e := by
    intro u e he
    have hsub := C34_subsequence (t := u) h0 hr02 hbn
    rw [hst0, List.nil_append] at hsub
    have := hsub.subset (List.mem_append_left _ he)
    rcases List.mem_append.1 this with he | he
    · left
      have hev : (s0.pc u).event = some e := by simpa using he
      by_cases hu : u = o
      · subst hu
        rw [hs0] at hs0'; cases hs0'
        obtain ⟨q, hq, e'⟩ := pop_goto s.enable u st
        rw [e', goto_pc] at hev
        have := hq.1
        cases q <;> simp [Pc.holdsMutex, Pc.event] at this hev
      · rw [next_pc hs0 hu] at hev; exact hev
    · exact Or.inr he
  -- what the buffer holds
  have hholds := (h2.data.bufs b0).holds
  have hmem : ∀ p ∈ flatEvents (tagged tid (s2.contents b0)), ∃ u, tid u = p.2 ∧ p.1 ∈ s2.stored b0 u := by
    rintro ⟨e, i⟩ hm
    simp only [flatEvents, tagged, List.mem_flatMap, List.mem_map] at hm
    obtain ⟨_, ⟨p, hp, rfl⟩, _, he, heq⟩ := hm
    cases heq
    obtain ⟨j, hj⟩ := List.mem_iff_getElem?.1 hp
    exact ⟨p.1, rfl, (h2.data.chunkInfix b0 j p.1 p.2 hj).subset he⟩
  obtain ⟨hH, vs, hvs, hval⟩ := C29_document_partial pid ctx (tagged tid (s2.contents b0))
    ⟨_, hctx, hholds⟩ hnames (fun p hp => by
      obtain ⟨u, _, hu⟩ := hmem p hp
      exact hrep u _ (hoff u _ hu))
  refine ⟨_, ((flatEvents (tagged tid (s2.contents b0))).map (·.2)).zip vs, hH, ?_, ?_, ?_⟩
  · unfold Lists; rw [zip_snd hvs]; exact hval
  · intro q hq
    obtain ⟨p, hp, hp2, hd⟩ := zip_mem hvs _ q hq
    obtain ⟨u, hu, hu'⟩ := hmem p hp
    exact ⟨u, p.1, by rw [hu, hp2], hoff u _ hu', by rw [← hp2]; exact hd⟩
  · intro hns hf hm t hto hev hreg hnd hev1 hlog
    have hkey := C34_stored (t := t) h0 hr01 hon0 (by rw [hst.1]; exact hreg) hb0 (new := n2) e2 hns hnd (Or.inr hf)
    rw [hst0, hev1, next_pc hs0 hto, hev] at hkey
    have hkey : s1.stored b0 t = logged t l1 := by simpa using hkey
    have hn1 : b0 < s1.nextBuf := run_nextBuf l1 hr01 hbn
    have hsub := C34_subsequence (t := t) h1 hr2 hn1
    rw [hev1, hlog] at hsub
    have hpre := stored_prefix l2 hr2 hn1 t
    have hsame : s2.stored b0 t = s1.stored b0 t := by
      have h5 := hsub.length_le
      have h6 := hpre.length_le
      simp at h5
      exact (hpre.eq_of_length (by omega)).symm
    have hof : ofId (tid t) (flatEvents (tagged tid (s2.contents b0))) = logged t l1 := by
      rw [ofId_flatEvents hinj, h2.data.fixedStored b0 t hm, hsame, hkey]
    rw [← hof]
    exact objectsOf_of hvs (tid t)

theorem Reads.unique {x : Buffer Event} {evs evs' : List (Event × Nat)} (h : Reads x evs) (h' : Reads x evs') :
    evs = evs' := by
  obtain ⟨n, hn⟩ := h
  obtain ⟨m, hm⟩ := h'
  have h1 := hn (max n m) (Nat.le_max_left _ _)
  have h2 := hm (max n m) (Nat.le_max_right _ _)
  rw [h1] at h2
  injection h2 with h2; injection h2

/-- C69 in ring mode: only thread `t` logs, in a run with a ring of `N` chunks, and is between
calls at `s1`; afterwards, up to `s2`, it logs nothing more. The document lists, each exactly once
and with the id of `t`, the last events `t` logged: all of them, or at least
`(N - 1) * capacity + 1`. -/
theorem C69_ring (h : Reachable true tid s) {o b t : Nat} {st : List Frame} (hp : s.pc o = .held .startEnable st)
    (hb : s.buffer = some b) (hm : (s.heap b).mode = .ring) (hq : ∀ u, u ≠ t → (s.pc u).logging = false)
    (hto : t ≠ o) (hi : (s.pc t).event = none) (hreg : isReg t s.hist = true)
    {l1 l2 : List (Nat × Choice Event)} (hr1 : s.run true tid ((o, .step) :: l1) = .to s1)
    (hr2 : s1.run true tid l2 = .to s2) (hl : OnlyLogger t (l1 ++ l2))
    {new : List Item} (hh : s1.hist = new ++ s.hist) (hns : ∀ sh full, Item.stop sh full ∉ new)
    (hnd : Item.deregOk t ∉ new) (hi1 : (s1.pc t).event = none) (hlog : logged t l2 = [])
    (hrep : ∀ e ∈ logged t l1, Representable e)
    (pid : Int) (ctx : TraceContext) (hctx : ctx.buffer = some (s2.heap b))
    (hnames : ∀ a ∈ ctx.threadNames, NameRepresentable a) :
    ∃ contents vs dropped kept shown, ctx.Holds pid contents ∧
      Lists pid ctx.threadNames vs (document pid ctx.threadNames (flatEvents contents)) ∧
      logged t l1 = dropped ++ kept ∧ shown.Perm kept ∧
      (∀ q ∈ vs, q.1 = tid t) ∧
      List.Forall₂ (fun e q => EventDenotes e pid (BitVec.ofNat 32 (tid t)) q.2) shown vs ∧
      (dropped = [] ∨ ((s2.heap b).chunks.length - 1) * chunkSize + 1 ≤ kept.length) := by
  have hr12 : s.run true tid ((o, .step) :: (l1 ++ l2)) = .to s2 := run_append hr1 hr2
  obtain ⟨s0, b1, hs, hb1, hon, hst⟩ := C34_begins h hp
  have hs' : s.next true tid o .step = .to (s.enable.pop o st) := by
    simp [St.next, St.logStep, St.heldStep, hp]
  have e1 : s0 = s.enable.pop o st := by rw [hs] at hs'; cases hs'; rfl
  obtain ⟨q, _, e⟩ := pop_goto s.enable o st
  have hbb : b1 = b := by
    rw [e1, e] at hb1
    have : s.buffer = some b1 := hb1
    rw [hb] at this; cases this; rfl
  subst hbb
  have hh1 : s0.hist = .run (s.nextBuf - 1) s.config :: s.hist := by rw [e1, e]; rfl
  have hr01 : s0.run true tid l1 = .to s1 := by simp only [St.run, hs] at hr1; exact hr1
  obtain ⟨n2, e2⟩ := run_hist hr01
  have hnew : new = n2 ++ [.run (s.nextBuf - 1) s.config] := by
    have : new ++ s.hist = (n2 ++ [.run (s.nextBuf - 1) s.config]) ++ s.hist := by
      rw [← hh, e2, hh1]; simp
    exact List.append_cancel_right this
  have hlast := h.ctl.last b1 hb
  have hn0 : s0.nextBuf = s.nextBuf := by rw [e1, e]; rfl
  have h0 := h.step hs
  have h1 := run_reachable h0 hr01
  have h2 := run_reachable h1 hr2
  have hmode : (s1.heap b1).mode = .ring := by
    have := (run_counter h0 (b := b1) (by omega) hr01).2.2
    rw [this, e1, e]; exact hm
  have key := C34_stored (t := t) h0 hr01 hon (by rw [hh1]; exact hreg) hb1 (new := n2) e2
    (fun a c hm => hns a c (by rw [hnew]; simp [hm])) (fun hm => hnd (by rw [hnew]; simp [hm])) (Or.inl hmode)
  rw [hst, hi1, next_pc hs hto, hi] at key
  have key : s1.stored b1 t = logged t l1 := by simpa using key
  have hn1 : b1 < s1.nextBuf := run_nextBuf l1 hr01 (by omega)
  have hsub := C34_subsequence (t := t) h1 hr2 hn1
  rw [hi1, hlog] at hsub
  have hpre := stored_prefix l2 hr2 hn1 t
  have h5 := hsub.length_le
  have h6 := hpre.length_le
  simp at h5
  have hsame : s2.stored b1 t = s1.stored b1 t := (hpre.eq_of_length (by omega)).symm
  have hi2 : (s2.pc t).event = none := by
    cases hev : (s2.pc t).event with
    | none => rfl
    | some e => rw [hev] at h5; simp at h5; omega
  obtain ⟨dropped, kept, evs, k1, k2, k3, k4⟩ := C59_kept h hp hb hm hq hr12 hl
  rw [if_pos hi2] at k4
  rw [hsame, key] at k1
  have hholds := (h2.data.bufs b1).holds
  have hevs := k2.unique (C19_iterate _ _ hholds)
  rw [hevs] at k3
  obtain ⟨hH, vs, hvs, hval⟩ := C29_document_partial pid ctx (tagged tid (s2.contents b1))
    ⟨_, hctx, hholds⟩ hnames (fun p hp => by
      have := k3.mem_iff.1 hp
      simp only [List.mem_map] at this
      obtain ⟨e, he, rfl⟩ := this
      exact hrep e (by rw [k1]; exact List.mem_append_right _ he))
  have htag : ∀ p ∈ flatEvents (tagged tid (s2.contents b1)), p.2 = tid t := by
    intro p hp
    have := k3.mem_iff.1 hp
    simp only [List.mem_map] at this
    obtain ⟨e, _, rfl⟩ := this; rfl
  refine ⟨_, ((flatEvents (tagged tid (s2.contents b1))).map (·.2)).zip vs, dropped, kept,
    (flatEvents (tagged tid (s2.contents b1))).map (·.1), hH, ?_, k1, ?_, ?_, ?_, k4⟩
  · unfold Lists; rw [zip_snd hvs]; exact hval
  · have := k3.map (·.1)
    simpa [Function.comp_def] using this
  · intro q hq
    obtain ⟨p, hp, hp2, _⟩ := zip_mem hvs _ q hq
    rw [← hp2]; exact htag p hp
  · clear hval k3 hevs hH hholds
    generalize flatEvents (tagged tid (s2.contents b1)) = evs at hvs htag ⊢
    induction hvs with
    | nil => exact .nil
    | cons hp _ ih =>
      rename_i p v evs vs _
      refine .cons ?_ (ih (fun p hp => htag p (List.mem_cons_of_mem _ hp)))
      rw [← htag p (by simp)]; exact hp

/-- Such runs exist for any number of events: those of `C59_any_number`. -/
example (h : Reachable true tid s) {o b t : Nat} {st : List Frame} (hp : s.pc o = .held .startEnable st)
    (hb : s.buffer = some b) (hm : (s.heap b).mode = .ring) (hq : ∀ u, u ≠ t → (s.pc u).logging = false)
    (hto : t ≠ o) (hi : s.pc t = .idle) (hreg : isReg t s.hist = true) (evs : List Event) :
    ∃ l s1, s.run true tid ((o, .step) :: l) = .to s1 ∧ OnlyLogger t (l ++ []) ∧ logged t l = evs ∧
      (s1.pc t).event = none ∧ (∃ new, s1.hist = new ++ s.hist) := by
  obtain ⟨l, s1, h1, h2, h3, _, h5, _⟩ := C59_any_number h hp hb hm hq hto hi hreg evs
  obtain ⟨new, e⟩ := run_hist h1
  exact ⟨l, s1, h1, by rw [List.append_nil]; exact h2, h3, by rw [h5]; rfl, new, e⟩

/-- C69: the pieces read from the exporter with any sizes, up to an empty one, make up one JSON
document that lists the names and the events of the trace. -/
theorem C69_pieces (hinj : ∀ u v, tid u = tid v → u = v) (h : Reachable true tid s) {o : Nat}
    {st : List Frame} (hp : s.pc o = .held .startEnable st)
    {l1 l2 : List (Nat × Choice Event)} (hr1 : s.run true tid ((o, .step) :: l1) = .to s1)
    {new : List Item} {b : Nat} {cfg : TraceConfig} (hh : s1.hist = new ++ .run b cfg :: s.hist)
    (hr2 : s1.run true tid l2 = .to s2)
    (hrep : ∀ u e, Offered s (l1 ++ l2) u e → Representable e)
    (pid : Int) (ctx : TraceContext) (hctx : ctx.buffer = some (s2.heap b))
    (hnames : ∀ a ∈ ctx.threadNames, NameRepresentable a)
    (ns : List Nat) (pieces : List Str)
    (hpc : (Exporter.make ctx >>= fun x => readMany pid x ns) = .ok pieces)
    {i n : Nat} (hn : ns[i]? = some n) (hpos : 0 < n) (hi : pieces[i]? = some []) :
    ∃ vs, Lists pid ctx.threadNames vs pieces.flatten ∧
      (∀ q ∈ vs, ∃ u e, tid u = q.1 ∧ Offered s (l1 ++ l2) u e ∧
        EventDenotes e pid (BitVec.ofNat 32 q.1) q.2) ∧
      ((∀ sh full, Item.stop sh full ∉ new) → (s1.heap b).counter ≤ (s1.heap b).chunks.length →
        (s2.heap b).mode ≠ .ring → ∀ t, t ≠ o → (s.pc t).event = none → isReg t s.hist = true →
        Item.deregOk t ∉ new → (s1.pc t).event = none → logged t l2 = [] →
        List.Forall₂ (fun e v => EventDenotes e pid (BitVec.ofNat 32 (tid t)) v) (logged t l1)
          (objectsOf (tid t) vs)) := by
  obtain ⟨contents, vs, h1, h2, h3⟩ := C69_document hinj h hp hr1 hh hr2 hrep pid ctx hctx hnames
  refine ⟨vs, ?_, h3⟩
  rw [C27_complete pid ctx contents h1 ns pieces hpc i n hn hpos hi]
  exact h2

/-- C69: the stopped callback that saves to a file that accepts and keeps everything leaves this
document in the file. -/
theorem C69_file (hinj : ∀ u v, tid u = tid v → u = v) (h : Reachable true tid s) {o : Nat}
    {st : List Frame} (hp : s.pc o = .held .startEnable st)
    {l1 l2 : List (Nat × Choice Event)} (hr1 : s.run true tid ((o, .step) :: l1) = .to s1)
    {new : List Item} {b : Nat} {cfg : TraceConfig} (hh : s1.hist = new ++ .run b cfg :: s.hist)
    (hr2 : s1.run true tid l2 = .to s2)
    (hrep : ∀ u e, Offered s (l1 ++ l2) u e → Representable e)
    (pid : Int) (ctx : TraceContext) (hctx : ctx.buffer = some (s2.heap b))
    (hnames : ∀ a ∈ ctx.threadNames, NameRepresentable a)
    (env : FileEnv) (ho : env.canOpen = true) (ha : ∀ n s, s.length ≤ env.accepts n s)
    (hk : ∀ s, s.length ≤ env.keeps s) :
    ∃ file vs, (∀ fuel, file.length < fuel → fileStop pid env fuel ctx = some (.ok (), some file)) ∧
      Lists pid ctx.threadNames vs file ∧
      (∀ q ∈ vs, ∃ u e, tid u = q.1 ∧ Offered s (l1 ++ l2) u e ∧
        EventDenotes e pid (BitVec.ofNat 32 q.1) q.2) ∧
      ((∀ sh full, Item.stop sh full ∉ new) → (s1.heap b).counter ≤ (s1.heap b).chunks.length →
        (s2.heap b).mode ≠ .ring → ∀ t, t ≠ o → (s.pc t).event = none → isReg t s.hist = true →
        Item.deregOk t ∉ new → (s1.pc t).event = none → logged t l2 = [] →
        List.Forall₂ (fun e v => EventDenotes e pid (BitVec.ofNat 32 (tid t)) v) (logged t l1)
          (objectsOf (tid t) vs)) := by
  obtain ⟨contents, vs, h1, h2, h3⟩ := C69_document hinj h hp hr1 hh hr2 hrep pid ctx hctx hnames
  exact ⟨_, vs, fun fuel hfuel => C30_success pid env ctx contents h1 fuel hfuel ho ha hk, h2, h3⟩

/-- C69: a context made by `getTraceContext` when tracing is off has the buffer of the log and
the names the history of registrations gives; both stay as they are. -/
theorem C69_context (hinj : ∀ u v, tid u = tid v → u = v) (h : Reachable pol tid s1) {t : Nat} {st : List Frame}
    (hp : s1.pc t = .held .user st) (hoff : s1.enabled = false) {b : Nat} (hb : s1.buffer = some b)
    {l : List (Nat × Choice Event)} (hr : s1.run pol tid ((t, .getTraceContext) :: l) = .to s3) :
    ∃ nm, (some b, nm) ∈ s3.contexts ∧ (∀ u, nm (tid u) = (record u s1.hist).1) ∧ s3.heap b = s1.heap b := by
  have hs : s1.next pol tid t .getTraceContext =
      .to { s1.retrieve with contexts := (s1.buffer, s1.names) :: s1.contexts } := by
    simp only [St.next, hp, hoff]; rfl
  have hr' := hr
  simp only [St.run, hs] at hr'
  have h1 := h.step hs
  have hheap := (C43_never_written h1 (b := b) (Or.inl (by simp [St.retrieve, hb])) hr').1
  refine ⟨s1.names, ?_, fun u => C40_exact hinj h u, hheap⟩
  exact contexts_keep l hr' _ (by rw [← hb]; simp)

/-- C69: the events the macros make are among those the document can represent: for texts without
unusual control characters, string arguments that need no escaping, finite doubles, ids that are
numbers or pointers, and a clock that is not negative. -/
theorem C69_macro (category name : Str) (k : Macro.Family) (args : List (Str × Macro.ArgE))
    (f : Macro.MW → Macro.MW) (hf : Macro.macroOf true category name k args = some f)
    (hname : TextRepresentable name) (hcat : TextRepresentable category)
    (hargs : ∀ a ∈ args, TextRepresentable a.1 ∧ ∀ i, ArgRepresentable a.2.ty (a.2.val i).asArgument)
    (hid : k.isAsync = true → ∀ a ∈ args.head?, ∀ i, (asyncId (a.2.val i).asArgument).isSome) (w : Macro.MW) :
    ∃ c, (f w).calls = w.calls ++ [c] ∧
      ∀ now, TimeRepresentable now → Representable (c.event now) := by
  have hty : ∀ t : Macro.Family, t.type ≠ .complete := by intro t; cases t <;> decide
  have hasync : k.type = .asyncStart ∨ k.type = .asyncEnd → k.isAsync = true := by
    cases k <;> simp [Macro.Family.type, Macro.Family.isAsync]
  have hnone : ∀ x : TraceArg, ¬ ArgRepresentable .isNone x := by
    intro x h; cases x <;> exact h
  have key : ∀ (nA nB : Str) (a b : Macro.Src),
      (a.ty = .isNone ∨ TextRepresentable nA ∧ ∀ w', ArgRepresentable a.ty (a.eval w').1) →
      (a.ty = .isNone ∨ b.ty = .isNone ∨ TextRepresentable nB ∧ ∀ w', ArgRepresentable b.ty (b.eval w').1) →
      (k.isAsync = true → ∀ w', (asyncId (a.eval w').1).isSome) →
      ∃ c, (Macro.event2 true category name k.type nA a nB b w).calls = w.calls ++ [c] ∧
        ∀ now, TimeRepresentable now → Representable (c.event now) := by
    intro nA nB a b ha hb hi
    refine ⟨.now (Macro.mkTpi category name k.type (some nA) a.ty (some nB) b.ty) (a.eval w).1
      (b.eval (a.eval w).2).1, ?_, fun now hnow => ⟨hname, hcat, hnow, ?_, ?_, ?_⟩⟩
    · rw [Macro.event2_calls]
      have : ∀ (x : Macro.Src) w', (x.eval w').2.calls = w'.calls := by intro x w'; cases x <;> rfl
      rw [this, this]
    · intro h; exact absurd h (hty k)
    · intro h; exact hi (hasync h) w
    · intro x hx
      have hp : presentArgs ((Macro.LogCall.now (Macro.mkTpi category name k.type (some nA) a.ty (some nB) b.ty)
          (a.eval w).1 (b.eval (a.eval w).2).1).event now) =
          if a.ty = .isNone then [] else if b.ty = .isNone then [(some nA, (a.eval w).1, a.ty)]
          else [(some nA, (a.eval w).1, a.ty), (some nB, (b.eval (a.eval w).2).1, b.ty)] := rfl
      rw [hp] at hx
      split at hx
      · cases hx
      · rename_i h1
        have ha := ha.resolve_left h1
        split at hx
        · simp only [List.mem_singleton] at hx; subst hx
          exact ⟨⟨nA, rfl, ha.1⟩, ha.2 w⟩
        · rename_i h2
          have hb := (hb.resolve_left h1).resolve_left h2
          simp only [List.mem_cons, List.not_mem_nil, or_false] at hx
          rcases hx with rfl | rfl
          · exact ⟨⟨nA, rfl, ha.1⟩, ha.2 w⟩
          · exact ⟨⟨nB, rfl, hb.1⟩, hb.2 _⟩
  have hidn : TextRepresentable "id".toList := by decide
  have hidn' : TextRepresentable "id_end".toList := by decide
  match args with
  | [] =>
    have he : f = Macro.event2 true category name k.type [] .noneType [] .noneType ∧ k.isAsync = false := by
      cases k <;> simp only [Macro.macroOf, Option.some.injEq, reduceCtorEq] at hf <;> subst hf <;>
        exact ⟨rfl, rfl⟩
    obtain ⟨rfl, hk⟩ := he
    exact key _ _ _ _ (Or.inl rfl) (Or.inl rfl) (fun h => by rw [hk] at h; cases h)
  | [(n, a)] =>
    have ha := hargs (n, a) (by simp)
    have he : ∃ n', TextRepresentable n' ∧
        f = Macro.event2 true category name k.type n' (.user a) [] .noneType := by
      cases k <;> simp only [Macro.macroOf, Option.some.injEq] at hf <;> subst hf
      case asyncStart => exact ⟨_, hidn, rfl⟩
      case asyncEnd => exact ⟨_, hidn', rfl⟩
      all_goals exact ⟨_, ha.1, rfl⟩
    obtain ⟨n', hn', rfl⟩ := he
    exact key _ _ _ _ (Or.inr ⟨hn', fun w' => ha.2 _⟩) (Or.inr (Or.inl rfl))
      (fun h w' => hid h (n, a) (by simp) _)
  | [(n, a), (m, b)] =>
    have ha := hargs (n, a) (by simp)
    have hb := hargs (m, b) (by simp)
    have he : ∃ n', TextRepresentable n' ∧
        f = Macro.event2 true category name k.type n' (.user a) m (.user b) := by
      cases k <;> simp only [Macro.macroOf, Option.some.injEq] at hf <;> subst hf
      case asyncStart => exact ⟨_, hidn, rfl⟩
      case asyncEnd => exact ⟨_, hidn', rfl⟩
      all_goals exact ⟨_, ha.1, rfl⟩
    obtain ⟨n', hn', rfl⟩ := he
    exact key _ _ _ _ (Or.inr ⟨hn', fun w' => ha.2 _⟩) (Or.inr (Or.inr ⟨hb.1, fun w' => hb.2 _⟩))
      (fun h w' => hid h (n, a) (by simp) _)
  | _ :: _ :: _ :: _ => cases k <;> simp [Macro.macroOf] at hf

/-! ### A whole program -/

/-- Thread 1 uses `TRACE_INSTANT2("cat", "name", "n", i++, "s", "x")` and
`TRACE_EVENT_START0("cat", "b")`. -/
def demoCalls : List Macro.LogCall :=
  (Macro.TRACE_EVENT_START0 true "cat".toList "b".toList
    (Macro.TRACE_INSTANT2 true "cat".toList "name".toList "n".toList Macro.exArg1 "s".toList
      Macro.exArg2 ⟨[7], []⟩)).calls

/-- The events at their times. -/
def demoEvents : List Event := (demoCalls.zip [1500#64, 2500#64]).map fun p => p.1.event p.2

/-- Thread 1 registers, thread 0 starts tracing, thread 1 logs the two events, thread 0 stops
tracing and makes a context. -/
def demoRun : List (Nat × Choice Event) :=
  [(1, .register ['w']), (1, .step), (1, .step), (0, .lock), (0, .start { mode := .fixed, size := 4008 }),
    (0, .step)] ++ [(0, .step)] ++ [(0, .ret), (0, .step)] ++
  demoEvents.zipIdx.flatMap (fun p => (1, .log p.1) :: List.replicate (if p.2 = 0 then 11 else 6) (1, .step)) ++
  [(0, .lock), (0, .stop false)] ++ List.replicate 4 (0, .step) ++ [(0, .getTraceContext)]

/-- The document of that program. -/
example : (match (St.init (ε := Event)).run true (· + 100) demoRun with
    | .to s => s.enabled == false && (match s.contexts with
      | [(some b, nm)] =>
        (match Exporter.make ⟨some (s.heap b), [(101, (nm 101).getD [])]⟩ >>=
            fun x => readMany 9 x [100, 1, 1000, 5] with
          | .ok ps => ps.getLast? == some [] && ps.flatten == ("{\"traceEvents\":[" ++
              "{\"name\":\"thread_name\",\"ph\":\"M\",\"pid\":9,\"tid\":101,\"args\":{\"name\":\"w\"}}," ++
              "{\"name\":\"name\",\"cat\":\"cat\",\"ph\":\"i\",\"s\":\"t\",\"ts\":1.500,\"pid\":9,\"tid\":101," ++
              "\"args\":{\"n\":41,\"s\":\"x\"}}," ++
              "{\"name\":\"b\",\"cat\":\"cat\",\"ph\":\"B\",\"ts\":2.500,\"pid\":9,\"tid\":101,\"args\":{}}]}").toList
          | _ => false)
      | _ => false)
    | _ => false) = true := by
  decide +kernel

end Phosphor.TLog
