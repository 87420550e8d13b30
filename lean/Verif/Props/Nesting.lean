import Verif.Proof.Nesting
import Verif.Props.Window
import Verif.Props.EndToEnd
import Verif.Props.TraceLogRingMany
/-
C94: start and end events are matched up, even when nested (docs/design/Instrumentation-API.md:
74-76). The viewer, which pairs every end with the latest start of the same thread that has no end
yet, finds in the trace the pairs of the program.
-/
namespace Phosphor.Nest
open TLog Json

/-! ### The viewer -/

/-- C94: of any sequence of starts, ends and other entries, the viewer pairs exactly the starts and
ends that belong together: those with a balanced part between. -/
theorem C94_viewer {α : Type} (side : α → Side) (w : List α) (i j : Nat) :
    (i, j) ∈ pairs side w ↔ Partner (w.map side) i j := pairs_iff

/-- C94: a start belongs to one end only, and comes before it. -/
theorem C94_one_end {w : List Side} {i j j' : Nat} (h : Partner w i j) (h' : Partner w i j') :
    j = j' ∧ i < j ∧ j < w.length := ⟨h.end_unique h', h.lt⟩

/-- C94: an end belongs to one start only. -/
theorem C94_one_start {w : List Side} {i i' j : Nat} (h : Partner w i j) (h' : Partner w i' j) : i = i' :=
  h.start_unique h'

/-- C94: a part of a sequence without gaps has the pairs of the whole that lie in it: whatever is
missing before it and after it, the viewer pairs nothing else. -/
theorem C94_part {p v q : List Side} {i j : Nat} (hj : j < v.length) :
    Partner v i j ↔ Partner (p ++ v ++ q) (p.length + i) (p.length + j) := partner_infix hj

/-- `B B E E E`, with something else in between: the viewer finds the two pairs. -/
example : pairs id [.opens, .plain, .opens, .closes, .closes, .closes] = [(2, 3), (0, 4)] := by decide

theorem pairs_take {α : Type} (side : α → Side) {w v : List α} (h : v <+: w) (i j : Nat) :
    (i, j) ∈ pairs side v ↔ Partner (w.map side) i j ∧ j < v.length := by
  obtain ⟨q, rfl⟩ := h
  rw [pairs_iff]
  constructor
  · intro hp
    have hj := hp.lt.2
    rw [List.length_map] at hj
    have := (partner_infix (p := []) (q := q.map side) (by rw [List.length_map]; exact hj)).1 hp
    refine ⟨?_, hj⟩
    simpa using this
  · rintro ⟨hp, hj⟩
    refine (partner_infix (p := []) (q := q.map side) (by rw [List.length_map]; exact hj)).2 ?_
    simpa using hp

/-! ### From the program to the trace -/
section
variable {ε : Type} {tid : Nat → Nat} {s s' : St ε} {t : Nat}

/-- C94: a run with a fixed buffer begins (state `s`, by thread `o`), and any threads do anything: the
buffer may fill up, tracing may be stopped and started again. For a thread `t` that was registered
and between calls when it began, and does not deregister, reading the buffer yields the first `k` of
the events that it logged, and the viewer pairs exactly the starts and ends of `t` that belong
together in the program and are among them. -/
theorem C94_trace (hinj : ∀ u v, tid u = tid v → u = v) (h : Reachable true tid s) {o : Nat} {st : List Frame}
    (hp : s.pc o = .held .startEnable st) (hi : (s.pc t).event = none) (hreg : isReg t s.hist = true)
    {l : List (Nat × Choice ε)} (hr : s.run true tid ((o, .step) :: l) = .to s') {new : List Item} {b : Nat}
    {cfg : TraceConfig} (hh : s'.hist = new ++ .run b cfg :: s.hist) (hnd : Item.deregOk t ∉ new)
    (hm : (s'.heap b).mode ≠ .ring) (side : ε → Side) :
    ∃ evs k, Reads (s'.heap b) evs ∧ ofId (tid t) evs = (logged t l).take k ∧ k ≤ (logged t l).length ∧
      ∀ i j, (i, j) ∈ pairs side (ofId (tid t) evs) ↔ Partner ((logged t l).map side) i j ∧ j < k := by
  obtain ⟨evs, h1, h2⟩ := C48_read hinj (run_reachable h hr) b hm
  have hpre := C34_prefix h hp hi hreg hr hh hnd
  refine ⟨evs, (s'.stored b t).length, h1, ?_, hpre.length_le, fun i j => ?_⟩
  · rw [h2]; exact (List.prefix_iff_eq_take.1 hpre)
  · rw [h2]; exact pairs_take side hpre i j

/-- C94 in ring mode: the run is not stopped, and the events of thread `t` carry times that increase.
Put into the order of their times, the events of `t` that the buffer still holds are the last ones
it logged, all from some `n`-th on, and the viewer pairs exactly the starts and ends of `t` that
belong together in the program and are among them. -/
theorem C94_ring (hinj : ∀ u v, tid u = tid v → u = v) (h : Reachable true tid s) {o b : Nat} {st : List Frame}
    (hp : s.pc o = .held .startEnable st) (hb : s.buffer = some b) (hm : (s.heap b).mode = .ring) (hto : t ≠ o)
    (hi : (s.pc t).event = none) (hreg : isReg t s.hist = true)
    {l : List (Nat × Choice ε)} (hr : s.run true tid ((o, .step) :: l) = .to s') {new : List Item}
    (hh : s'.hist = new ++ s.hist) (hns : ∀ sh full, Item.stop sh full ∉ new) (hnd : Item.deregOk t ∉ new)
    (hi' : (s'.pc t).event = none) (side : ε → Side) (time : ε → Int)
    (htime : (logged t l).Pairwise (fun x y => time x < time y)) :
    ∃ evs, Reads (s'.heap b) evs ∧ ∀ w : List ε, w.Perm (ofId (tid t) evs) → w.Pairwise (fun x y => time x ≤ time y) →
      ∃ n, w = (logged t l).drop n ∧
        ∀ i j, (i, j) ∈ pairs side w ↔ Partner ((logged t l).map side) (n + i) (n + j) := by
  obtain ⟨evs, h1, h2⟩ := C76_last hinj h hp hb hm hr hh hns
  refine ⟨evs, h1, fun w hw hs => ?_⟩
  obtain ⟨dropped, kept, e, hk⟩ := h2 t hto hi hreg hnd hi'
  have hkt : kept.Pairwise (fun x y => time x < time y) := by
    rw [e] at htime; exact (List.pairwise_append.1 htime).2.1
  have hwk : w = kept := by
    refine List.Perm.eq_of_pairwise (le := fun x y => time x ≤ time y) ?_ hs (hkt.imp (fun h => Int.le_of_lt h)) (hw.trans hk)
    intro x y hx hy h1 h2
    by_contra hne
    have hx' := (hw.trans hk).subset hx
    have := (List.pairwise_iff_getElem.1 hkt)
    obtain ⟨i, hi, rfl⟩ := List.mem_iff_getElem.1 hx'
    obtain ⟨j, hj, rfl⟩ := List.mem_iff_getElem.1 hy
    rcases Nat.lt_trichotomy i j with h' | h' | h'
    · have := this i j hi hj h'; omega
    · subst h'; exact hne rfl
    · have := this j i hj hi h'; omega
  subst hwk
  refine ⟨dropped.length, by rw [e]; simp, fun i j => ?_⟩
  rw [pairs_iff, e, List.map_append]
  constructor
  · intro hp
    have := (partner_infix (p := dropped.map side) (q := []) hp.lt.2).1 hp
    simpa using this
  · intro hp
    have hj := hp.lt.2
    rw [List.length_append, List.length_map] at hj
    refine (partner_infix (p := dropped.map side) (q := []) (by omega)).2 ?_
    simpa using hp

end

/-! ### The exported document -/

/-- What an event is to the viewer. -/
def sideOf (e : Event) : Side :=
  match e.tpi.type with
  | .syncStart => .opens
  | .syncEnd => .closes
  | _ => .plain

/-- What an object of the document is to the viewer: `"ph"` is `B`, `E`, or something else (Trace
Event Format). -/
def shownSide : JVal → Side
  | .obj ms =>
    match (ms.find? (fun m => m.1 = "ph".toList)).map (fun m => m.2) with
    | some (JVal.str ['B']) => .opens
    | some (JVal.str ['E']) => .closes
    | _ => .plain
  | _ => .plain

theorem shownSide_of {e : Event} {pid : Int} {i : BitVec 32} {v : JVal} (h : EventDenotes e pid i v) :
    shownSide v = sideOf e := by
  obtain ⟨extras, args, _, _, rfl⟩ := h
  have hf : ∀ (rest : List (Str × JVal)) (a b : JVal),
      ((("name".toList, a) :: ("cat".toList, b) :: ("ph".toList, .str (phase e.tpi.type)) :: rest).find?
        (fun m => m.1 = "ph".toList)).map (fun m => m.2) = some (JVal.str (phase e.tpi.type)) := by
    intro rest a b
    rw [List.find?_cons_of_neg (by simp), List.find?_cons_of_neg (by simp),
      List.find?_cons_of_pos (by simp)]
    rfl
  unfold shownSide
  simp only [List.cons_append, List.nil_append]
  rw [hf]
  unfold sideOf
  cases e.tpi.type <;> rfl

section
variable {tid : Nat → Nat} {s s' : St Event} {t : Nat}

/-- C94: of the document exported from the buffer of the run, the viewer pairs exactly the objects of
`t` that denote a start and an end which belong together in the program, both among the first `k`
events that `t` logged: those the buffer took. -/
theorem C94_document (hinj : ∀ u v, tid u = tid v → u = v) (h : Reachable true tid s) {o : Nat} {st : List Frame}
    (hp : s.pc o = .held .startEnable st) (hi : (s.pc t).event = none) (hreg : isReg t s.hist = true)
    {l : List (Nat × Choice Event)} (hr : s.run true tid ((o, .step) :: l) = .to s') {new : List Item} {b : Nat}
    {cfg : TraceConfig} (hh : s'.hist = new ++ .run b cfg :: s.hist) (hnd : Item.deregOk t ∉ new)
    (hm : (s'.heap b).mode ≠ .ring) (hrep : ∀ u, ∀ e ∈ s'.stored b u, Representable e)
    (pid : Int) (ctx : TraceContext) (hctx : ctx.buffer = some (s'.heap b))
    (hnames : ∀ a ∈ ctx.threadNames, NameRepresentable a) :
    ∃ contents vs k, ctx.Holds pid contents ∧
      Lists pid ctx.threadNames vs (document pid ctx.threadNames (flatEvents contents)) ∧
      List.Forall₂ (fun e v => EventDenotes e pid (BitVec.ofNat 32 (tid t)) v) ((logged t l).take k)
        (objectsOf (tid t) vs) ∧ k ≤ (logged t l).length ∧
      ∀ i j, (i, j) ∈ pairs shownSide (objectsOf (tid t) vs) ↔ Partner ((logged t l).map sideOf) i j ∧ j < k := by
  have h2 := run_reachable h hr
  have hpre := C34_prefix h hp hi hreg hr hh hnd
  have hholds := (h2.data.bufs b).holds
  have hmem : ∀ p ∈ flatEvents (tagged tid (s'.contents b)), ∃ u, tid u = p.2 ∧ p.1 ∈ s'.stored b u := by
    rintro ⟨e, i⟩ hm
    simp only [flatEvents, tagged, List.mem_flatMap, List.mem_map] at hm
    obtain ⟨_, ⟨p, hp, rfl⟩, _, he, heq⟩ := hm
    cases heq
    obtain ⟨j, hj⟩ := List.mem_iff_getElem?.1 hp
    exact ⟨p.1, rfl, (h2.data.chunkInfix b j p.1 p.2 hj).subset he⟩
  obtain ⟨hH, vs, hvs, hval⟩ := C29_document_partial pid ctx (tagged tid (s'.contents b))
    ⟨_, hctx, hholds⟩ hnames (fun p hp => by
      obtain ⟨u, _, hu⟩ := hmem p hp
      exact hrep u _ hu)
  have hobj := objectsOf_of hvs (tid t)
  rw [ofId_flatEvents hinj, h2.data.fixedStored b t hm] at hobj
  refine ⟨_, ((flatEvents (tagged tid (s'.contents b))).map (·.2)).zip vs, (s'.stored b t).length, hH, ?_, ?_, hpre.length_le, ?_⟩
  · unfold Lists; rw [zip_snd hvs]; exact hval
  · rw [← List.prefix_iff_eq_take.1 hpre]; exact hobj
  · intro i j
    have hsides : (objectsOf (tid t) (((flatEvents (tagged tid (s'.contents b))).map (·.2)).zip vs)).map shownSide =
        (s'.stored b t).map sideOf := by
      generalize objectsOf (tid t) (((flatEvents (tagged tid (s'.contents b))).map (·.2)).zip vs) = ob at hobj
      generalize s'.stored b t = ev at hobj
      clear hpre hholds hmem hH hvs hval h2
      induction hobj with
      | nil => rfl
      | cons hd _ ih => rw [List.map_cons, List.map_cons, ih, shownSide_of hd]
    rw [pairs_iff, hsides, ← pairs_iff (side := sideOf)]
    exact pairs_take sideOf hpre i j

end

/-! ### From the macros -/

theorem view_map {α β : Type} (f : α → β) (side : β → Side) : ∀ (w st : List α),
    view side (st.map f) (w.map f) = (view (side ∘ f) st w).map (fun p => (f p.1, f p.2)) := by
  intro w
  induction w with
  | nil => intro st; rfl
  | cons a w ih =>
    intro st
    rcases ha : side (f a) with _ | _ | _
    · simp only [List.map_cons, view, Function.comp_apply, ha]; exact ih (a :: st)
    · rcases st with _ | ⟨x, st⟩
      · simp only [List.map_cons, List.map_nil, view, Function.comp_apply, ha]; exact ih []
      · simp only [List.map_cons, view, Function.comp_apply, ha]; rw [ih st]
    · simp only [List.map_cons, view, Function.comp_apply, ha]; exact ih st

/-- One passage of a macro: its category, name, kind and arguments. -/
structure Use where
  category : Str
  name : Str
  kind : Macro.Family
  args : List (Str × Macro.ArgE)

/-- Passages one after the other, with the categories that are enabled; `none`: there is no such
macro. -/
def Use.all (en : Str → Bool) : List Use → Macro.MW → Option Macro.MW
  | [], w => some w
  | u :: us, w => (Macro.macroOf (en u.category) u.category u.name u.kind u.args).bind (fun f => Use.all en us (f w))

/-- The trace point of a call. -/
def tpiOf : Macro.LogCall → TracepointInfo
  | .now tpi _ _ => tpi
  | .timed tpi _ _ _ _ => tpi

/-- Category, name and type. -/
def headOf (tpi : TracepointInfo) : Str × Str × EventType := (tpi.category, tpi.name, tpi.type)

/-- Category, name and type of the event of a passage. -/
def Use.head (u : Use) : Str × Str × EventType := (u.category, u.name, u.kind.type)

/-- What category, name and type are to the viewer. -/
def headSide (h : Str × Str × EventType) : Side :=
  match h.2.2 with
  | .syncStart => .opens
  | .syncEnd => .closes
  | _ => .plain

theorem use_calls {en : Bool} {u : Use} {f : Macro.MW → Macro.MW}
    (hf : Macro.macroOf en u.category u.name u.kind u.args = some f) (w : Macro.MW) :
    (f w).calls.map (headOf ∘ tpiOf) = w.calls.map (headOf ∘ tpiOf) ++ if en then [u.head] else [] := by
  have key : ∀ (nA nB : Str) (a b : Macro.Src),
      (Macro.event2 en u.category u.name u.kind.type nA a nB b w).calls.map (headOf ∘ tpiOf) =
        w.calls.map (headOf ∘ tpiOf) ++ if en then [u.head] else [] := by
    intro nA nB a b
    cases en
    · simp [Macro.event2]
    · have hev : ∀ (x : Macro.Src) (w : Macro.MW), (x.eval w).2.calls = w.calls := by
        intro x w; cases x <;> rfl
      simp [Macro.event2, Macro.MW.call, hev, headOf, tpiOf, Use.head, Macro.mkTpi]
  obtain ⟨category, name, kind, args⟩ := u
  match args with
  | [] =>
    cases kind <;> simp only [Macro.macroOf, Option.some.injEq, reduceCtorEq] at hf <;> subst hf <;> exact key _ _ _ _
  | [(_, _)] => cases kind <;> simp only [Macro.macroOf, Option.some.injEq] at hf <;> subst hf <;> exact key _ _ _ _
  | [(_, _), (_, _)] =>
    cases kind <;> simp only [Macro.macroOf, Option.some.injEq] at hf <;> subst hf <;> exact key _ _ _ _
  | _ :: _ :: _ :: _ => cases kind <;> simp [Macro.macroOf] at hf

/-- C94: passages of macros, the enabled categories staying the same, make one call each whose
category is enabled, in order. -/
theorem C94_calls {en : Str → Bool} : ∀ {us : List Use} {w w' : Macro.MW}, Use.all en us w = some w' →
    w'.calls.map (headOf ∘ tpiOf) = w.calls.map (headOf ∘ tpiOf) ++ (us.filter (en ·.category)).map Use.head := by
  intro us
  induction us with
  | nil => intro w w' h; cases h; simp
  | cons u us ih =>
    intro w w' h
    simp only [Use.all, Option.bind_eq_some_iff] at h
    obtain ⟨f, hf, h⟩ := h
    rw [ih h, use_calls hf]
    rcases hon : en u.category with _ | _
    · simp [hon]
    · simp [hon]

/-- C94, for a program: thread `t` passes macros, with the same categories enabled throughout, and ends
each start in the category of the start. Whatever else happens in the run with a fixed buffer, what
the viewer pairs of `t` are the first of the pairs of the program whose category is enabled, in
order: each a start and the end that belongs to it. If the buffer took all events of `t` they are all. -/
theorem C94_program_partial {tid : Nat → Nat} {s s' : St Event} {t : Nat}
    (hinj : ∀ u v, tid u = tid v → u = v) (h : Reachable true tid s) {o : Nat} {st : List Frame}
    (hp : s.pc o = .held .startEnable st) (hi : (s.pc t).event = none) (hreg : isReg t s.hist = true)
    {l : List (Nat × Choice Event)} (hr : s.run true tid ((o, .step) :: l) = .to s') {new : List Item} {b : Nat}
    {cfg : TraceConfig} (hh : s'.hist = new ++ .run b cfg :: s.hist) (hnd : Item.deregOk t ∉ new)
    (hm : (s'.heap b).mode ≠ .ring)
    (en : Str → Bool) (us : List Use) {w : Macro.MW} (hus : Use.all en us ⟨[], []⟩ = some w)
    (hlog : List.Forall₂ (fun c e => ∃ now, e = Macro.LogCall.event now c) w.calls (logged t l))
    (hnest : ∀ p ∈ view (headSide ∘ Use.head) [] us, p.1.category = p.2.category) :
    ∃ evs, Reads (s'.heap b) evs ∧
      (view sideOf [] (ofId (tid t) evs)).map (fun p => (headOf p.1.tpi, headOf p.2.tpi)) <+:
        ((view (headSide ∘ Use.head) [] us).filter (fun p => en p.1.category)).map (fun p => (p.1.head, p.2.head)) ∧
      ((ofId (tid t) evs).length = (logged t l).length →
        (view sideOf [] (ofId (tid t) evs)).map (fun p => (headOf p.1.tpi, headOf p.2.tpi)) =
          ((view (headSide ∘ Use.head) [] us).filter (fun p => en p.1.category)).map (fun p => (p.1.head, p.2.head))) := by
  obtain ⟨evs, h1, h2⟩ := C48_read hinj (run_reachable h hr) b hm
  have hpre := C34_prefix h hp hi hreg hr hh hnd
  have hheads : (logged t l).map (fun e => headOf e.tpi) = (us.filter (en ·.category)).map Use.head := by
    have hc := C94_calls hus
    rw [List.map_nil, List.nil_append] at hc
    rw [← hc]
    clear hpre hc hr hus
    generalize w.calls = cs at hlog
    generalize logged t l = es at hlog
    induction hlog with
    | nil => rfl
    | cons hd _ ih =>
      obtain ⟨now, rfl⟩ := hd
      rw [List.map_cons, List.map_cons, ih]
      congr 1
      rename_i c _ _ _
      cases c <;> rfl
  have hview : ∀ v : List Event, (view sideOf [] v).map (fun p => (headOf p.1.tpi, headOf p.2.tpi)) =
      view headSide [] (v.map (fun e => headOf e.tpi)) := by
    intro v
    exact (view_map (fun e : Event => headOf e.tpi) headSide v []).symm
  have hall : view headSide [] ((logged t l).map (fun e => headOf e.tpi)) =
      ((view (headSide ∘ Use.head) [] us).filter (fun p => en p.1.category)).map (fun p => (p.1.head, p.2.head)) := by
    rw [hheads]
    have := view_map Use.head headSide (us.filter (en ·.category)) []
    rw [List.map_nil] at this
    rw [this]
    have hf := stack_filter (side := headSide ∘ Use.head) (on := fun u : Use => en u.category) us []
      (fun p hp => by rw [hnest p hp])
    rw [List.filter_nil] at hf
    rw [hf]
  refine ⟨evs, h1, ?_, ?_⟩
  · rw [h2, hview, ← hall]
    obtain ⟨q, e⟩ := hpre
    rw [← e, List.map_append, view_append]
    exact List.prefix_append _ _
  · intro hlen
    rw [h2] at hlen ⊢
    rw [hview, ← hall, hpre.eq_of_length hlen]

/-! ### Where the claim fails -/

/-- Even numbers are starts, the next numbers their ends. -/
def evenOdd (n : Nat) : Side := if n % 2 = 0 then .opens else .closes

/-- C94 is violated by a thread that deregisters in between: it logs start 0, start 2, end 3 and end 1,
deregistering and registering again around end 3; the viewer pairs start 2 with end 1. -/
theorem C94_refuted_leave : ∃ (s s' : St Nat) (l : List (Nat × Choice Nat)) (evs : List (Nat × Nat)),
    Reachable true (· + 100) s ∧ s.pc 0 = .held .startEnable [.resumeUser] ∧ (s.pc 1).event = none ∧
    isReg 1 s.hist = true ∧ s.run true (· + 100) ((0, .step) :: l) = .to s' ∧ (s'.heap 0).mode = .fixed ∧
    Reads (s'.heap 0) evs ∧ view evenOdd [] (logged 1 l) = [(2, 3), (0, 1)] ∧
    view evenOdd [] (ofId 101 evs) = [(2, 1)] := by
  obtain ⟨s, s', h1, h2, h3, h4, h5, h6, h7, h8⟩ := C34_gap
  obtain ⟨evs, g1, g2⟩ := C48_read (tid := (· + 100)) (fun u v h => by simpa using h) (run_reachable h1 h5) 0 (by rw [h6]; decide)
  refine ⟨s, s', _, evs, h1, h2, h3, h4, h5, h6, g1, by rw [h7]; decide, ?_⟩
  have := g2 1
  simp only [Nat.reduceAdd] at this
  rw [this, h8]; decide

/-- Thread 1 logs 0, 1, …, 200 into a ring of two chunks of 100 events. -/
def around : List (Nat × Choice Nat) :=
  logs 1 0 11 ++ (List.range 99).flatMap (fun i => logs 1 (i + 1) 6) ++ logs 1 100 13 ++
  (List.range 99).flatMap (fun i => logs 1 (i + 101) 6) ++ logs 1 200 14

/-- C94: that a ring has to be put into the order of the times is needed. Thread 1 logs a start (199) and
its end (200), which goes to a chunk used before. In reading order, which is that of the document,
the end comes first. -/
theorem C94_refuted_ring : ∃ s : St Nat, Reachable true (· + 100) s ∧ (s.heap 0).mode = .ring ∧
    s.stored 0 1 = List.range 201 ∧ ∃ evs, Reads (s.heap 0) evs ∧
    ofId 101 evs = 200 :: (List.range 100).map (· + 100) := by
  obtain ⟨s, h1, h2⟩ := check_run (pol := true) (tid := (· + 100)) (p := fun s =>
      (s.heap 0).mode == .ring && s.stored 0 1 == List.range 201 &&
      s.contents 0 == [(1, [200]), (1, (List.range 100).map (· + 100))])
    (l := registers 1 ['a'] ++ starts ring2 ++ around) (by decide +kernel)
  simp only [Bool.and_eq_true, beq_iff_eq] at h2
  have hr := run_reachable .init h1
  refine ⟨s, hr, h2.1.1, h2.1.2, _, C19_iterate _ _ (hr.data.bufs 0).holds, ?_⟩
  rw [h2.2]
  decide +kernel

/-- `TRACE_EVENT_START0("x","a")`, `TRACE_EVENT_START0("y","b")`. -/
def opening : List Use := [⟨['x'], ['a'], .start, []⟩, ⟨['y'], ['b'], .start, []⟩]

/-- `TRACE_EVENT_END0("y","b")`, `TRACE_EVENT_END0("x","a")`. -/
def closing : List Use := [⟨['y'], ['b'], .stop, []⟩, ⟨['x'], ['a'], .stop, []⟩]

/-- The hypotheses of `C94_program_partial` about the program hold, with category `y` disabled: the
program has two pairs, of which that of category `x` is enabled. -/
example : (∃ w, Use.all (fun c => c == ['x']) (opening ++ closing) ⟨[], []⟩ = some w ∧ w.calls.length = 2) ∧
    (∀ p ∈ view (headSide ∘ Use.head) [] (opening ++ closing), p.1.category = p.2.category) ∧
    (view (headSide ∘ Use.head) [] (opening ++ closing)).map (fun p => (p.1.head, p.2.head)) =
      [((['y'], ['b'], .syncStart), (['y'], ['b'], .syncEnd)), ((['x'], ['a'], .syncStart), (['x'], ['a'], .syncEnd))] := by
  refine ⟨⟨_, rfl, rfl⟩, ?_, rfl⟩
  intro p hp
  have : p = (⟨['y'], ['b'], .start, []⟩, ⟨['y'], ['b'], .stop, []⟩) ∨ p = (⟨['x'], ['a'], .start, []⟩, ⟨['x'], ['a'], .stop, []⟩) := by
    simpa [view, opening, closing, headSide, Use.head, Macro.Family.type] using hp
  rcases this with rfl | rfl <;> rfl

/-- C94 is violated when the enabled categories change in between: `y` is disabled after the two starts.
The calls are start `a`, start `b`, end `a`, and the viewer ends `b` with the end of `a`. (The
categories stay the same as long as a run lasts, but a passage can be late: `C80_refuted`.) -/
theorem C94_refuted_switch : ∃ w w' : Macro.MW, Use.all (fun _ => true) opening ⟨[], []⟩ = some w ∧
    Use.all (fun c => c == ['x']) closing w = some w' ∧
    view headSide [] (w'.calls.map (headOf ∘ tpiOf)) =
      [((['y'], ['b'], .syncStart), (['x'], ['a'], .syncEnd))] :=
  ⟨_, _, rfl, rfl, rfl⟩

end Phosphor.Nest
