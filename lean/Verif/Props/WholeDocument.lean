import Verif.Props.WholeEvents
import Verif.Props.EndToEnd
import Verif.Props.TraceLogRingMany
import Mathlib.Tactic.ByContra
/-
C89: from trace points to the exported document. The events of Model/Whole are a trace point and a
number; `body` says which event a trace point makes of that number (what it does is C66).
-/
namespace Phosphor

/-- A chunk with `f` applied to its events. -/
def Chunk.mapEvents {ε δ : Type} (f : ε → δ) (c : Chunk ε) : Chunk δ :=
  ⟨c.nextFree, c.threadId, c.slots.map (Option.map f)⟩

/-- A buffer with `f` applied to its events. -/
def Buffer.mapEvents {ε δ : Type} (f : ε → δ) (b : Buffer ε) : Buffer δ :=
  ⟨b.mode, b.generation, b.chunks.map (Option.map (Chunk.mapEvents f)), b.counter, b.onLoan, b.queue⟩

variable {ε δ : Type} {f : ε → δ}

theorem Chunk.Holds.map {c : Chunk ε} {evs : List ε} (h : c.Holds evs) : (c.mapEvents f).Holds (evs.map f) := by
  refine ⟨by rw [List.length_map]; exact h.count, by rw [List.length_map]; exact h.room,
    by simp only [Chunk.mapEvents, List.length_map]; exact h.storage, fun i e he => ?_⟩
  rw [List.getElem?_map] at he
  cases hx : evs[i]? with
  | none => rw [hx] at he; cases he
  | some x =>
    rw [hx] at he; cases he
    have := h.events i x hx
    unfold Chunk.get at this ⊢
    simp only [Chunk.mapEvents, List.getElem?_map]
    generalize c.slots[i]? = y at this ⊢
    rcases y with _ | _ | y
    · simp_all
    · simp_all
    · simp_all

theorem Buffer.Holds.map {b : Buffer ε} {contents : List (Nat × List ε)} (h : b.Holds contents) :
    (b.mapEvents f).Holds (contents.map fun p => (p.1, p.2.map f)) := by
  refine ⟨?_, fun i tid evs he => ?_⟩
  · rw [List.length_map, ← h.count]
    cases b with | mk m => cases m <;> simp [Buffer.mapEvents, Buffer.chunkCount, Buffer.size]
  · rw [List.getElem?_map] at he
    cases hx : contents[i]? with
    | none => rw [hx] at he; cases he
    | some x =>
      rw [hx] at he; cases he
      obtain ⟨c, h1, h2, h3⟩ := h.chunk i x.1 x.2 hx
      exact ⟨c.mapEvents f, by simp [Buffer.mapEvents, h1], h2, h3.map⟩

theorem flatEvents_map (contents : List (Nat × List ε)) :
    flatEvents (contents.map fun p => (p.1, p.2.map f)) = (flatEvents contents).map fun p => (f p.1, p.2) := by
  simp [flatEvents, List.flatMap_map, List.map_flatMap, Function.comp_def]

theorem TLog.ofId_map (i : Nat) (evs : List (ε × Nat)) :
    TLog.ofId i (evs.map fun p => (f p.1, p.2)) = (TLog.ofId i evs).map f := by
  induction evs with
  | nil => rfl
  | cons p evs ih =>
    unfold TLog.ofId at *
    simp only [List.map_cons, List.filterMap_cons]
    by_cases h : p.2 = i
    · simp only [h, if_true, List.map_cons]; rw [ih]
    · simp only [h, if_false]; exact ih

namespace Whole
open Json
variable {cat : Nat → Str} {tid : Nat → Nat} {s s' : St}

/-- The event that trace point makes of what it is given. -/
def Ev.event (body : Nat → Nat → Event) (e : Ev) : Event := body e.point e.contents

theorem Run.trans {L L' : List (Nat × Ev)} {s1 : St} (h : Run cat tid s L s1) (h' : Run cat tid s1 L' s') :
    Run cat tid s (L ++ L') s' := by
  induction h' with
  | refl => rw [List.append_nil]; exact h
  | pass x _ ht hst ih => rw [← List.append_assoc]; exact ih.pass x ht hst
  | other _ st hl ih => exact ih.other st hl

/-- An event in a buffer was made by a passage of a trace point. -/
theorem stored_passed {L : List (Nat × Ev)} (h : Run cat tid St.init L s) {b t : Nat} (hb : b < s.log.nextBuf) {e : Ev}
    (he : e ∈ s.log.stored b t) : (t, e) ∈ L := by
  have h1 := C85_recorded_once h t e
  have h2 : 0 < ((List.range s.log.nextBuf).flatMap (fun b => s.log.stored b t)).count e :=
    List.count_pos_iff.2 (List.mem_flatMap.2 ⟨b, List.mem_range.2 hb, he⟩)
  exact List.count_pos_iff.1 (by omega)

/-- How often an event is in one buffer, and in all of them. -/
theorem stored_count {L : List (Nat × Ev)} (h : Run cat tid St.init L s) {b t : Nat} (hb : b < s.log.nextBuf) (e : Ev) :
    (s.log.stored b t).count e ≤ L.count (t, e) := by
  refine Nat.le_trans ?_ (C85_recorded_once h t e)
  obtain ⟨l1, l2, hl⟩ := List.append_of_mem (List.mem_range.2 hb)
  rw [hl]
  simp only [List.flatMap_append, List.flatMap_cons, List.count_append]
  omega

/-- What the buffer holds, thread by thread. -/
theorem reads_all (hinj : ∀ u v, tid u = tid v → u = v) (h : TLog.Reachable true tid s.log) {b : Nat}
    (hb : b < s.log.nextBuf) (t : Nat) : ∃ dropped kept, s.log.stored b t = dropped ++ kept ∧
      (TLog.ofId (tid t) (flatEvents (tagged tid (s.log.contents b)))).Perm kept ∧
      ((s.log.heap b).mode ≠ .ring → dropped = []) ∧
      (dropped ≠ [] → (s.log.heap b).chunks.length ≤ (s.log.heap b).counter) := by
  by_cases hm : (s.log.heap b).mode = .ring
  · obtain ⟨evs, h1, h2⟩ := TLog.C76_no_gaps hinj h b hb hm
    have he : evs = flatEvents (tagged tid (s.log.contents b)) := by
      obtain ⟨n, hn⟩ := h1
      obtain ⟨m, hm⟩ := C19_iterate _ _ (h.data.bufs b).holds
      have h1 := hn (max n m) (Nat.le_max_left _ _)
      have h2 := hm (max n m) (Nat.le_max_right _ _)
      rw [h1] at h2; injection h2 with h2; injection h2
    subst he
    obtain ⟨d, k, h3, h4, h5⟩ := h2 t
    exact ⟨d, k, h3, h4, fun hh => absurd hm hh, h5⟩
  · refine ⟨[], s.log.stored b t, rfl, ?_, fun _ => rfl, fun hh => absurd rfl hh⟩
    rw [TLog.ofId_flatEvents hinj, h.data.fixedStored b t hm]

/-- A thread that has nothing to log and passes no enabled trace point stores nothing. -/
theorem Run.quiet {L : List (Nat × Ev)} (hs : Reachable cat tid s) (h : Run cat tid s L s') {b t : Nat}
    (hb : b < s.log.nextBuf) (hL : ∀ e, (t, e) ∉ L) (hi : (s.log.pc t).event = none) (hp : s.pend t = []) :
    s'.log.stored b t = s.log.stored b t ∧ (s'.log.pc t).event = none ∧ s'.pend t = [] := by
  induction h with
  | refl => exact ⟨rfl, hi, hp⟩
  | @pass L s1 u p i x _ ht hst ih =>
    obtain ⟨h1, h2, h3⟩ := ih (fun e he => hL e (List.mem_append_left _ he))
    refine ⟨h1, h2, ?_⟩
    have hu : t ≠ u := by
      rintro rfl
      exact hL _ (List.mem_append_right _ (List.mem_singleton.2 rfl))
    show setf s1.pend u _ t = []
    rw [setf_ne _ _ hu]; exact h3
  | @other L s1 s2 hr st hl ih =>
    obtain ⟨h1, h2, h3⟩ := ih hL
    obtain ⟨c, w⟩ := winv (hr.reachable hs)
    have hb1 : b < s1.log.nextBuf := by have := (hr.keeps hs hb).2.1; omega
    have key : ∀ {u c l'}, s1.log.next true tid u c = .to l' → (u = t → TLog.calls c = []) →
        l'.stored b t = s.log.stored b t ∧ (l'.pc t).event = none := by
      intro u c l' hn hc
      refine ⟨?_, ?_⟩
      · rcases TLog.C48_stored hn b t hb1 with e | ⟨rfl, e, he, _⟩
        · rw [e, h1]
        · rw [he] at h2; cases h2
      · have := (TLog.C34_subsequence (t := t) w.log (l := [(u, c)]) (s' := l') (by simp only [TLog.St.run, hn]) hb1).length_le
        have h0 : TLog.logged t [(u, c)] = [] := by
          by_cases hu : u = t
          · simp [TLog.logged, hc hu]
          · simp [TLog.logged, hu]
        rw [h0, h2] at this
        have hsame : l'.stored b t = s1.log.stored b t := by
          rcases TLog.C48_stored hn b t hb1 with e | ⟨rfl, e, he, _⟩
          · exact e
          · rw [he] at h2; cases h2
        rw [hsame] at this
        simp at this
        exact this
    cases st with
    | @log u c l' _ _ _ hc hn =>
      have h0 : TLog.calls c = [] := by
        cases c with
        | log x => exact absurd rfl (hc x)
        | _ => rfl
      obtain ⟨k1, k2⟩ := key hn (fun _ => h0)
      exact ⟨k1, k2, h3⟩
    | call _ _ _ st => exact ⟨h1, h2, h3⟩
    | finish _ _ _ _ st => exact ⟨h1, h2, h3⟩
    | point st _ _ _ => exact ⟨h1, h2, h3⟩
    | testOff ht hs he => exact ⟨h1, h2, h3⟩
    | @testOn u p i tp' x ht hs he =>
      exfalso
      have := hl u
      simp at this
    | @emit u x l' hm _ _ _ hn =>
      have hu : u ≠ t := by rintro rfl; rw [h3] at hm; cases hm
      obtain ⟨k1, k2⟩ := key hn (fun e => absurd e hu)
      refine ⟨k1, k2, ?_⟩
      show setf s1.pend u _ t = []
      rw [setf_ne _ _ (Ne.symm hu)]; exact h3

variable {s1 s2 : St}

/-- C89: a program of any trace points, configurations and threads runs to `s`, to `s1` and to `s2`;
`L0`, `L1` and `L2` are the passages of trace points that found their category enabled. A context
made in `s2` of any buffer made so far exports to one JSON document that lists, besides the names,
objects that denote events: those of each thread are events of passages of that thread, and none more
often than there were passages. Suppose a run is on in `s` with this buffer, and is not stopped until
`s1`, and nobody is refused a chunk. For a thread that is registered from `s` to `s1`, has nothing
recorded, in hand or pending in `s`, is outside of scopes and calls in `s1`, and passes no enabled
trace point after it, the objects are exactly its passages from `s` to `s1`, each once, except that a
ring of which every chunk has been handed out may have dropped the ones it stored first. -/
theorem C89_document (hinj : ∀ u v, tid u = tid v → u = v) {L0 L1 L2 : List (Nat × Ev)}
    (h0 : Run cat tid St.init L0 s) (h1 : Run cat tid s L1 s1) (h2 : Run cat tid s1 L2 s2)
    {b : Nat} (hb : b < s2.log.nextBuf)
    (body : Nat → Nat → Event) (hrep : ∀ q ∈ L0 ++ L1 ++ L2, Representable (q.2.event body))
    (pid : Int) (ctx : TraceContext) (hctx : ctx.buffer = some ((s2.log.heap b).mapEvents (·.event body)))
    (hnames : ∀ a ∈ ctx.threadNames, NameRepresentable a) :
    ∃ contents vs, ctx.Holds pid contents ∧
      TLog.Lists pid ctx.threadNames vs (document pid ctx.threadNames (flatEvents contents)) ∧
      (∀ q ∈ vs, ∃ u, tid u = q.1) ∧
      ∀ t, ∃ shown : List Ev,
        List.Forall₂ (fun e v => EventDenotes (e.event body) pid (BitVec.ofNat 32 (tid t)) v) shown
          (TLog.objectsOf (tid t) vs) ∧
        (∀ e, shown.count e ≤ (L0 ++ L1 ++ L2).count (t, e)) ∧
        (s.log.enabled = true → s.log.buffer = some b →
          ∀ new, s1.log.hist = new ++ s.log.hist → (∀ sh full, TLog.Item.stop sh full ∉ new) →
          ((s.log.heap b).mode = .ring ∨ (s1.log.heap b).counter ≤ (s1.log.heap b).chunks.length) →
          TLog.isReg t s.log.hist = true → TLog.Item.deregOk t ∉ new →
          s.here b t = [] → (s1.log.pc t).event = none → s1.pend t = [] → (∀ e, (t, e) ∉ L2) →
          ∃ dropped : List Ev, (∀ e, dropped.count e + shown.count e = L1.count (t, e)) ∧
            (dropped ≠ [] → (s.log.heap b).mode = .ring ∧
              (s2.log.heap b).chunks.length ≤ (s2.log.heap b).counter ∧
              ∃ kept, shown.Perm kept ∧ s2.log.stored b t = dropped ++ kept)) := by
  have hs : Reachable cat tid s := h0.reachable .init
  have hs1 := h1.reachable hs
  obtain ⟨c0, w0⟩ := winv hs
  obtain ⟨c, w⟩ := winv (h2.reachable hs1)
  have hw := w.log
  have hrun := (h0.trans h1).trans h2
  have hmem : ∀ p ∈ flatEvents (tagged tid (s2.log.contents b)), ∃ u, tid u = p.2 ∧ p.1 ∈ s2.log.stored b u := by
    rintro ⟨e, i⟩ hm
    simp only [flatEvents, tagged, List.mem_flatMap, List.mem_map] at hm
    obtain ⟨_, ⟨p, hp, rfl⟩, _, he, heq⟩ := hm
    cases heq
    obtain ⟨j, hj⟩ := List.mem_iff_getElem?.1 hp
    exact ⟨p.1, rfl, (hw.data.chunkInfix b j p.1 p.2 hj).subset he⟩
  obtain ⟨hH, vs, hvs, hval⟩ := C29_document_partial pid ctx _ ⟨_, hctx, (hw.data.bufs b).holds.map⟩ hnames
    (fun p hp => by
      rw [flatEvents_map] at hp
      obtain ⟨q, hq, rfl⟩ := List.mem_map.1 hp
      obtain ⟨u, _, hu⟩ := hmem q hq
      exact hrep (u, q.1) (stored_passed hrun hb hu))
  refine ⟨_, ((flatEvents ((tagged tid (s2.log.contents b)).map fun p =>
    (p.1, p.2.map (·.event body)))).map (·.2)).zip vs, hH, ?_, ?_, fun t => ?_⟩
  · unfold TLog.Lists; rw [TLog.zip_snd hvs]; exact hval
  · intro q hq
    obtain ⟨p, hp, hp2, _⟩ := TLog.zip_mem hvs _ q hq
    rw [flatEvents_map] at hp
    obtain ⟨q', hq', rfl⟩ := List.mem_map.1 hp
    obtain ⟨u, hu, _⟩ := hmem q' hq'
    exact ⟨u, hu.trans hp2⟩
  · obtain ⟨dropped, kept, k1, k2, k3, k4⟩ := reads_all hinj hw hb t
    refine ⟨TLog.ofId (tid t) (flatEvents (tagged tid (s2.log.contents b))), ?_, fun e => ?_, ?_⟩
    · have := TLog.objectsOf_of hvs (tid t)
      rw [flatEvents_map, TLog.ofId_map, List.forall₂_map_left_iff] at this
      rw [flatEvents_map]
      exact this
    · rw [k2.count_eq]
      refine Nat.le_trans ?_ (stored_count hrun (t := t) hb e)
      rw [k1, List.count_append]; omega
    · intro hon hbuf new hh hns hf hreg hnd hn hi hp hL
      have hbn : b < s.log.nextBuf := by have := w0.log.ctl.last b hbuf; omega
      obtain ⟨_, m1, _, _, m2⟩ := h1.keeps hs hbn
      have hb1 : b < s1.log.nextBuf := by omega
      obtain ⟨_, _, _, _, m3⟩ := h2.keeps hs1 hb1
      refine ⟨dropped, fun e => ?_, fun hd => ⟨?_, k4 hd, kept, k2, k1⟩⟩
      · have := (C85_stored hs h1 hon hreg hbuf hh hns hnd (hf.imp (fun hm => by rw [m2]; exact hm) id) e).1
        rw [hn] at this
        unfold St.here at this
        rw [hi, hp] at this
        rw [k2.count_eq, ← List.count_append, ← k1, (h2.quiet hs1 hb1 hL hi hp).1]
        simpa using this
      · by_contra hm
        exact hd (k3 (by rw [m3, m2]; exact hm))

/-- C89: and so do the pieces read from the exporter with any sizes, up to an empty one. -/
theorem C89_pieces (hinj : ∀ u v, tid u = tid v → u = v) {L0 L1 L2 : List (Nat × Ev)}
    (h0 : Run cat tid St.init L0 s) (h1 : Run cat tid s L1 s1) (h2 : Run cat tid s1 L2 s2)
    {b : Nat} (hb : b < s2.log.nextBuf)
    (body : Nat → Nat → Event) (hrep : ∀ q ∈ L0 ++ L1 ++ L2, Representable (q.2.event body))
    (pid : Int) (ctx : TraceContext) (hctx : ctx.buffer = some ((s2.log.heap b).mapEvents (·.event body)))
    (hnames : ∀ a ∈ ctx.threadNames, NameRepresentable a)
    (ns : List Nat) (pieces : List Str) (hpc : (Exporter.make ctx >>= fun x => readMany pid x ns) = .ok pieces)
    {i n : Nat} (hn : ns[i]? = some n) (hpos : 0 < n) (hi : pieces[i]? = some []) :
    ∃ vs, TLog.Lists pid ctx.threadNames vs pieces.flatten ∧ (∀ q ∈ vs, ∃ u, tid u = q.1) ∧
      ∀ t, ∃ shown : List Ev,
        List.Forall₂ (fun e v => EventDenotes (e.event body) pid (BitVec.ofNat 32 (tid t)) v) shown
          (TLog.objectsOf (tid t) vs) ∧
        (∀ e, shown.count e ≤ (L0 ++ L1 ++ L2).count (t, e)) ∧
        (s.log.enabled = true → s.log.buffer = some b →
          ∀ new, s1.log.hist = new ++ s.log.hist → (∀ sh full, TLog.Item.stop sh full ∉ new) →
          ((s.log.heap b).mode = .ring ∨ (s1.log.heap b).counter ≤ (s1.log.heap b).chunks.length) →
          TLog.isReg t s.log.hist = true → TLog.Item.deregOk t ∉ new →
          s.here b t = [] → (s1.log.pc t).event = none → s1.pend t = [] → (∀ e, (t, e) ∉ L2) →
          ∃ dropped : List Ev, (∀ e, dropped.count e + shown.count e = L1.count (t, e)) ∧
            (dropped ≠ [] → (s.log.heap b).mode = .ring ∧
              (s2.log.heap b).chunks.length ≤ (s2.log.heap b).counter ∧
              ∃ kept, shown.Perm kept ∧ s2.log.stored b t = dropped ++ kept)) := by
  obtain ⟨contents, vs, k1, k2, k3⟩ := C89_document hinj h0 h1 h2 hb body hrep pid ctx hctx hnames
  refine ⟨vs, ?_, k3⟩
  rw [C27_complete pid ctx contents k1 ns pieces hpc i n hn hpos hi]
  exact k2

/-- C89 is about something: a run in which thread 1 passes two enabled trace points; the document
lists one object for each. -/
example : ∃ (s1 : St) (vs : List (Nat × JVal)) (text : Str) (shown : List Ev), Reachable dflt id s1 ∧
    TLog.Lists 42 [(1, "worker".toList)] vs text ∧
    List.Forall₂ (fun e v => EventDenotes (e.event fun _ _ => exampleEvent) 42 1#32 v) shown (TLog.objectsOf 1 vs) ∧
    ∀ e, shown.count e = [(⟨5, 7, some 0⟩ : Ev), ⟨6, 8, some 0⟩].count e := by
  obtain ⟨s, s1, L, new, hs, h1, a1, a2, a3, a4, a5, a6, a7, a8, a9, a10, a11, rfl, a13⟩ := two_passages
  obtain ⟨L0, h0⟩ := Run.of_reachable hs
  obtain ⟨c0, w0⟩ := winv hs
  have hbn : 0 < s.log.nextBuf := by have := w0.log.ctl.last 0 a3; omega
  obtain ⟨_, m1, _, _, m2⟩ := h1.keeps hs hbn
  obtain ⟨contents, vs, k1, k2, k3, k4⟩ := C89_document (fun _ _ h => h) h0 h1 .refl (b := 0) (by omega)
    (fun _ _ => exampleEvent) (fun _ _ => exampleEvent_representable) 42
    ⟨some ((s1.log.heap 0).mapEvents (·.event fun _ _ => exampleEvent)), [(1, "worker".toList)]⟩ rfl
    (fun a ha => by
      rw [List.mem_singleton.1 ha]
      exact ⟨by decide, by decide⟩)
  obtain ⟨shown, j1, j2, j3⟩ := k4 1
  refine ⟨s1, vs, _, shown, h1.reachable hs, k2, j1, fun e => ?_⟩
  obtain ⟨dropped, j4, j5⟩ := j3 a1 a3 new a5 a6 (Or.inr a9) a2 a7 a4 a10 a11 (fun _ h => by cases h)
  have hd : dropped = [] := by
    by_contra hd
    exact a8 (by rw [m2]; exact (j5 hd).1)
  have := j4 e
  rw [hd, List.count_nil, Nat.zero_add] at this
  rw [this]
  simp [List.count_cons]

end Whole
end Phosphor
