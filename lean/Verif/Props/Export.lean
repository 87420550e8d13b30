import Verif.Props.Event
import Verif.Proof.Export
/-
Properties C27–C31: exporting and saving.
-/
namespace Phosphor
open Json Exporter

/-! ### C27 Chunked export is independent of the chunk sizes -/

/-- Successive `read(n)` calls; the pieces returned. -/
def readMany (pid : Int) : Exporter → List Nat → Res (List Str)
  | _, [] => .ok []
  | x, n :: ns => do
    let (s, x') ← x.read pid n
    let rest ← readMany pid x' ns
    .ok (s :: rest)

theorem readMany_spec {pid : Int} {contents : List (Nat × List Event)} (ns : List Nat)
    {x : Exporter} (h : x.WF pid contents) :
    ∃ pieces, readMany pid x ns = .ok pieces ∧ pieces.length = ns.length ∧
      ∀ (i n : Nat) (p : Str), ns[i]? = some n → pieces[i]? = some p →
        p = ((x.left pid contents).drop (ns.take i).sum).take n := by
  induction ns generalizing x with
  | nil => exact ⟨[], rfl, rfl, by simp⟩
  | cons n ns ih =>
    obtain ⟨x', e1, e2, e3, -⟩ := read_spec h n
    obtain ⟨ps, f1, f2, f3⟩ := ih e2
    refine ⟨(x.left pid contents).take n :: ps, by simp only [readMany, e1, f1, Res.bind_ok],
      by simp [f2], ?_⟩
    intro i m p hm hp
    cases i with
    | zero =>
      simp only [List.getElem?_cons_zero, Option.some.injEq] at hm hp
      subst hm hp; simp
    | succ i =>
      simp only [List.getElem?_cons_succ] at hm hp
      rw [f3 i m p hm hp, e3, List.drop_drop]
      simp

theorem pieces_flatten (L : Str) (ns : List Nat) (pieces : List Str) (hl : pieces.length = ns.length)
    (h : ∀ (i n : Nat) (p : Str), ns[i]? = some n → pieces[i]? = some p →
        p = (L.drop (ns.take i).sum).take n) : pieces.flatten = L.take ns.sum := by
  induction ns generalizing L pieces with
  | nil =>
    have : pieces = [] := List.length_eq_zero_iff.1 hl
    simp [this]
  | cons n ns ih =>
    cases pieces with
    | nil => cases hl
    | cons p ps =>
      have h0 := h 0 n p rfl rfl
      simp only [List.take_zero, List.sum_nil, List.drop_zero] at h0
      rw [List.flatten_cons, ih (L.drop n) ps (by simpa using hl), h0, List.sum_cons, List.take_add]
      intro i m q hm hq
      have := h (i + 1) m q (by simpa using hm) (by simpa using hq)
      rw [this, List.drop_drop]; simp

/-- Whatever the sizes, the pieces returned are consecutive parts of one fixed document: the
`i`-th is what comes after the first `n₀ + … + nᵢ₋₁` bytes, up to `nᵢ` bytes. -/
theorem C27_pieces (pid : Int) (ctx : TraceContext) (contents : List (Nat × List Event))
    (h : ctx.Holds pid contents) (ns : List Nat) :
    ∃ pieces, (Exporter.make ctx >>= fun x => readMany pid x ns) = .ok pieces ∧
      pieces.length = ns.length ∧
      pieces.flatten = (document pid ctx.threadNames (flatEvents contents)).take ns.sum ∧
      ∀ (i n : Nat) (p : Str), ns[i]? = some n → pieces[i]? = some p →
        p = ((document pid ctx.threadNames (flatEvents contents)).drop (ns.take i).sum).take n := by
  obtain ⟨x, e1, e2, -, e4⟩ := make_spec h
  obtain ⟨ps, f1, f2, f3⟩ := readMany_spec ns e2
  rw [e4] at f3
  exact ⟨ps, by rw [e1]; exact f1, f2, pieces_flatten _ _ _ f2 f3, f3⟩

/-- Once a read of `n > 0` bytes returns nothing, everything has been returned. -/
theorem C27_complete (pid : Int) (ctx : TraceContext) (contents : List (Nat × List Event))
    (h : ctx.Holds pid contents) (ns : List Nat) (pieces : List Str)
    (hp : (Exporter.make ctx >>= fun x => readMany pid x ns) = .ok pieces)
    (i n : Nat) (hn : ns[i]? = some n) (hpos : 0 < n) (hi : pieces[i]? = some []) :
    pieces.flatten = document pid ctx.threadNames (flatEvents contents) := by
  obtain ⟨ps, e1, e2, e3, e4⟩ := C27_pieces pid ctx contents h ns
  rw [hp] at e1; cases e1
  have := e4 i n [] hn hi
  rw [e3]
  apply List.take_of_length_le
  have hz := congrArg List.length this
  rw [List.length_take, List.length_drop, List.length_nil] at hz
  have hs : (ns.take i).sum ≤ ns.sum := by
    conv_rhs => rw [← List.take_append_drop i ns]
    rw [List.sum_append]; omega
  omega

/-- A chunk holding one event. -/
def exampleChunk : Chunk Event :=
  { nextFree := 1
    threadId := 7
    slots := some exampleEvent :: List.replicate 99 none }

/-- Two threads named, and one chunk holding one event. -/
def exampleContext : TraceContext where
  buffer := some ⟨.fixed, 0, [some exampleChunk], 1, 0, []⟩
  threadNames := [(7, "a".toList), (8, "b".toList)]

theorem exampleContext_holds : exampleContext.Holds 42 [(7, [exampleEvent])] where
  buffer := by
    refine ⟨_, rfl, by decide, ?_⟩
    intro i tid evs hi
    cases i with
    | zero =>
      cases hi
      refine ⟨exampleChunk, rfl, rfl, ⟨by decide, by decide, by decide, ?_⟩⟩
      intro i e he
      cases i with
      | zero => cases he; rfl
      | succ i => cases he
    | succ i => cases hi
  texts := by
    intro p hp
    simp only [flatEvents, List.flatMap_cons, List.map_cons, List.map_nil, List.flatMap_nil,
      List.append_nil, List.mem_singleton] at hp
    subst hp
    exact ⟨_, exampleEvent_json⟩

example : (Exporter.make exampleContext >>= fun x => readMany 42 x [0, 20, 1000, 5]) = .ok
    [[], "{\"traceEvents\":[{\"na".toList,
     ("me\":\"thread_name\",\"ph\":\"M\",\"pid\":42,\"tid\":7,\"args\":{\"name\":\"a\"}}," ++
      "{\"name\":\"thread_name\",\"ph\":\"M\",\"pid\":42,\"tid\":8,\"args\":{\"name\":\"b\"}}," ++
      "{\"name\":\"na\\/me\",\"cat\":\"cat\",\"ph\":\"X\",\"dur\":0.089,\"ts\":1234.567," ++
      "\"pid\":42,\"tid\":7,\"args\":{\"x\":\"hello\",\"y\":-5}}]}").toList, []] := by
  decide +kernel

/-! ### C28 `read()` returns the entire document -/

/-- What `read()` returns, for every trace: the whole document, except that the last byte is
missing if the document is one byte longer than a multiple of the block size 4096. -/
theorem C28_read_all (pid : Int) (ctx : TraceContext) (contents : List (Nat × List Event))
    (h : ctx.Holds pid contents) (fuel : Nat)
    (hfuel : (document pid ctx.threadNames (flatEvents contents)).length ≤ fuel) :
    ∃ x x', Exporter.make ctx = .ok x ∧
      x.readAll pid fuel = some (.ok (
        (document pid ctx.threadNames (flatEvents contents)).take
          (if (document pid ctx.threadNames (flatEvents contents)).length % 4096 = 1
            then (document pid ctx.threadNames (flatEvents contents)).length - 1
            else (document pid ctx.threadNames (flatEvents contents)).length), x')) := by
  obtain ⟨x, e1, e2, e3, e4⟩ := make_spec h
  obtain ⟨o, n, x', f1, -, -, -, f2⟩ := readAllLoop_spec fuel x [] e2 (by rw [e3]; decide)
    (by rw [e4]; exact hfuel)
  refine ⟨x, x', e1, ?_⟩
  rw [Exporter.readAll, f1]
  simp only
  rw [f2, e4]; rfl

/-- C28. Full claim: for every trace; missing: documents whose length is 1 modulo 4096, for
which it is false (`C28_iff`, `C28_refuted`). -/
theorem C28_read_all_partial (pid : Int) (ctx : TraceContext) (contents : List (Nat × List Event))
    (h : ctx.Holds pid contents) (fuel : Nat)
    (hfuel : (document pid ctx.threadNames (flatEvents contents)).length ≤ fuel)
    (hmod : (document pid ctx.threadNames (flatEvents contents)).length % 4096 ≠ 1) :
    ∃ x x', Exporter.make ctx = .ok x ∧
      x.readAll pid fuel = some (.ok (document pid ctx.threadNames (flatEvents contents), x')) := by
  obtain ⟨x, x', e1, e2⟩ := C28_read_all pid ctx contents h fuel hfuel
  rw [if_neg hmod, List.take_length] at e2
  exact ⟨x, x', e1, e2⟩

theorem C28_iff (pid : Int) (ctx : TraceContext) (contents : List (Nat × List Event))
    (h : ctx.Holds pid contents) (fuel : Nat)
    (hfuel : (document pid ctx.threadNames (flatEvents contents)).length ≤ fuel) :
    (∃ x x', Exporter.make ctx = .ok x ∧
      x.readAll pid fuel = some (.ok (document pid ctx.threadNames (flatEvents contents), x'))) ↔
    (document pid ctx.threadNames (flatEvents contents)).length % 4096 ≠ 1 := by
  constructor
  · rintro ⟨x, x', e1, e2⟩ hmod
    obtain ⟨y, y', f1, f2⟩ := C28_read_all pid ctx contents h fuel hfuel
    rw [e1] at f1; cases f1
    rw [e2, if_pos hmod] at f2
    simp only [Option.some.injEq, Res.ok.injEq, Prod.mk.injEq] at f2
    have := congrArg List.length f2.1
    rw [List.length_take] at this
    omega
  · exact C28_read_all_partial pid ctx contents h fuel hfuel

/-- A thread with a long name and no event. -/
def longContext (n : Nat) : TraceContext :=
  { buffer := some (Buffer.makeFixed 0 1), threadNames := [(1, List.replicate n 'a')] }

theorem longContext_holds (n : Nat) : (longContext n).Holds 1 [] where
  buffer := ⟨_, rfl, by decide, by intro i tid evs hi; cases hi⟩
  texts := by intro p hp; cases hp

theorem threadText_length (pid : Int) (a : Nat × Str) : (threadAssociationToString pid a).length =
    64 + (fmtInt pid).length + (fmtInt (BitVec.ofNat 32 a.1).toInt).length + (cstr a.2).length := by
  rw [threadText_eq]
  have h3 : ("{\"name\":\"thread_name\",\"ph\":\"M\",\"pid\":".toList).length = 37 := by decide
  have h4 : (",\"tid\":".toList).length = 7 := by decide
  have h5 : (",\"args\":{\"name\":\"".toList).length = 17 := by decide
  have h6 : ("\"}}".toList).length = 3 := by decide
  simp only [List.length_append, h3, h4, h5, h6]
  omega

theorem longDocument (n : Nat) : (document 1 [(1, List.replicate n 'a')] []).length = 84 + n := by
  have hfree : '\x00' ∉ List.replicate n 'a' := by
    intro h; have := (List.mem_replicate.1 h).2; exact absurd this (by decide)
  have h1 : ("{\"traceEvents\":[".toList).length = 16 := by decide
  have h2 : ("]}".toList).length = 2 := by decide
  have h7 : (fmtInt 1).length = 1 := by decide
  have h8 : (fmtInt (BitVec.ofNat 32 1).toInt).length = 1 := by decide
  unfold document
  rw [List.map_cons, List.map_nil, List.map_nil, List.append_nil, commaJoin, List.length_append,
    List.length_append, h1, h2, threadText_length, h7, h8, cstr_of_free hfree, List.length_replicate]
  omega

/-- A trace for which `read()` loses the closing brace. -/
theorem C28_refuted : ∃ (ctx : TraceContext) (contents : List (Nat × List Event)) (x x' : Exporter)
    (s : Str), ctx.Holds 1 contents ∧ Exporter.make ctx = .ok x ∧
      x.readAll 1 5000 = some (.ok (s, x')) ∧
      s ≠ document 1 ctx.threadNames (flatEvents contents) ∧
      s = (document 1 ctx.threadNames (flatEvents contents)).dropLast := by
  have hl : (document 1 (longContext 4013).threadNames (flatEvents [])).length = 4097 := longDocument 4013
  obtain ⟨x, x', e1, e2⟩ := C28_read_all 1 (longContext 4013) [] (longContext_holds _) 5000
    (by rw [hl]; omega)
  generalize hL : document 1 (longContext 4013).threadNames (flatEvents []) = L at *
  rw [hl, if_pos (by decide)] at e2
  refine ⟨longContext 4013, [], x, x', _, longContext_holds _, e1, e2, ?_, ?_⟩
  · rw [hL]
    intro h
    have := congrArg List.length h
    rw [List.length_take, hl] at this
    omega
  · rw [hL, List.dropLast_eq_take, hl]

/-! ### C29 The exported document is valid JSON listing everything once -/

/-- Conditions under which a thread's name is exported correctly: nothing in the name needs
escaping, and the id is not shown as a negative number. -/
structure NameRepresentable (a : Nat × Str) : Prop where
  name : ∀ c ∈ a.2, PlainChar c
  tid : a.1 < 2 ^ 31

theorem threadText_value {pid : Int} {a : Nat × Str} (h : NameRepresentable a) :
    Value (nameObject pid a) (threadAssociationToString pid a) := by
  have hfree : '\x00' ∉ a.2 := fun hm => absurd (h.name _ hm) (by decide)
  have htid : (BitVec.ofNat 32 a.1).toInt = (a.1 : Int) := by
    have := h.tid
    rw [BitVec.toInt_eq_toNat_of_lt] <;> simp only [BitVec.toNat_ofNat] <;> omega
  rw [threadText_eq, cstr_of_free hfree, htid]
  have m1 : Member ("name".toList, .str "thread_name".toList) "\"name\":\"thread_name\"".toList :=
    member_mk (ks := "\"name\"".toList) (s := "\"thread_name\"".toList)
      (isString_plain (s := "name".toList) (by decide))
      (Value.str (isString_plain (s := "thread_name".toList) (by decide)))
  have m2 : Member ("ph".toList, .str "M".toList) "\"ph\":\"M\"".toList :=
    member_mk (ks := "\"ph\"".toList) (s := "\"M\"".toList)
      (isString_plain (s := "ph".toList) (by decide))
      (Value.str (isString_plain (s := "M".toList) (by decide)))
  have m3 : Member ("pid".toList, .num pid) ("\"pid\":".toList ++ fmtInt pid) :=
    member_mk (ks := "\"pid\"".toList) (isString_plain (s := "pid".toList) (by decide))
      (Value.num (number_fmtInt pid))
  have m4 : Member ("tid".toList, .num a.1) ("\"tid\":".toList ++ fmtInt a.1) :=
    member_mk (ks := "\"tid\"".toList) (isString_plain (s := "tid".toList) (by decide))
      (Value.num (by simpa using number_fmtInt (a.1 : Int)))
  have m5' : Member ("name".toList, .str a.2) ("\"name\":\"".toList ++ a.2 ++ ['"']) := by
    have := member_mk (ks := "\"name\"".toList) (isString_plain (s := "name".toList) (by decide))
      (Value.str (isString_plain h.name))
    simpa using this
  have m5 : Member ("args".toList, .obj [("name".toList, .str a.2)])
      ("\"args\":{\"name\":\"".toList ++ a.2 ++ "\"}".toList) := by
    have := member_mk (ks := "\"args\"".toList) (isString_plain (s := "args".toList) (by decide))
      (Value.obj (Members.one m5'))
    simpa using this
  have := Value.obj (Members.cons m1 (Members.cons m2 (Members.cons m3 (Members.cons m4 (Members.one m5)))))
  simpa [nameObject] using this

theorem array_value {vs : List JVal} {ts : List Str} (h : List.Forall₂ Value vs ts) :
    Value (.arr vs) ('[' :: (commaJoin ts ++ [']'])) := by
  cases h with
  | nil => exact Value.arrNil ws_nil
  | @cons v t vs ts hv h =>
    refine Value.arr ?_
    induction h generalizing v t with
    | nil => simpa [commaJoin] using Elements.one ws_nil hv ws_nil
    | @cons v' t' vs' ts' hv' h' ih =>
      have := Elements.cons ws_nil hv ws_nil (ih hv')
      simpa [commaJoin] using this

/-- The document is the JSON object whose `traceEvents` array holds one metadata object for
each named thread, followed by one object for each event in buffer order. Full claim: for
every trace; missing: thread names that need escaping, thread ids from 2^31, and events that
are not `Representable`, for which it is false (`C29_refuted_name`, `C29_refuted_tid`,
`C26_refuted_quote`). -/
theorem C29_document_partial (pid : Int) (ctx : TraceContext) (contents : List (Nat × List Event))
    (hb : ∃ b, ctx.buffer = some b ∧ b.Holds contents)
    (hnames : ∀ a ∈ ctx.threadNames, NameRepresentable a)
    (hevents : ∀ p ∈ flatEvents contents, Representable p.1) :
    ctx.Holds pid contents ∧
    ∃ vs, List.Forall₂ (fun p v => EventDenotes p.1 pid (BitVec.ofNat 32 p.2) v)
        (flatEvents contents) vs ∧
      Value (.obj [("traceEvents".toList, .arr (ctx.threadNames.map (nameObject pid) ++ vs))])
        (document pid ctx.threadNames (flatEvents contents)) := by
  have hev : ∀ p ∈ flatEvents contents, ∃ s v, p.1.toJson pid (BitVec.ofNat 32 p.2) = .ok s ∧
      Value v s ∧ EventDenotes p.1 pid (BitVec.ofNat 32 p.2) v :=
    fun p hp => C26_event_json_partial p.1 pid _ (hevents p hp)
  refine ⟨⟨hb, fun p hp => by obtain ⟨s, v, h, -⟩ := hev p hp; exact ⟨s, h⟩⟩, ?_⟩
  have hE : ∀ l : List (Event × Nat), (∀ p ∈ l, ∃ s v, p.1.toJson pid (BitVec.ofNat 32 p.2) = .ok s ∧
      Value v s ∧ EventDenotes p.1 pid (BitVec.ofNat 32 p.2) v) →
      ∃ vs, List.Forall₂ (fun p v => EventDenotes p.1 pid (BitVec.ofNat 32 p.2) v) l vs ∧
        List.Forall₂ Value vs (l.map (eventText pid)) := by
    intro l
    induction l with
    | nil => exact fun _ => ⟨[], .nil, .nil⟩
    | cons p l ih =>
      intro h
      obtain ⟨vs, h1, h2⟩ := ih (fun q hq => h q (List.mem_cons_of_mem _ hq))
      obtain ⟨s, v, e1, e2, e3⟩ := h p (List.mem_cons_self ..)
      refine ⟨v :: vs, .cons e3 h1, .cons ?_ h2⟩
      rw [eventText, e1]; exact e2
  have hN : ∀ l : List (Nat × Str), (∀ a ∈ l, NameRepresentable a) →
      List.Forall₂ Value (l.map (nameObject pid)) (l.map (threadAssociationToString pid)) := by
    intro l
    induction l with
    | nil => exact fun _ => .nil
    | cons a l ih =>
      intro h
      exact .cons (threadText_value (h a (List.mem_cons_self ..)))
        (ih (fun q hq => h q (List.mem_cons_of_mem _ hq)))
  obtain ⟨vs, h1, h2⟩ := hE _ hev
  refine ⟨vs, h1, ?_⟩
  have harr := array_value (List.rel_append (hN _ hnames) h2)
  have := Value.obj (Members.one (member_mk (ks := "\"traceEvents\"".toList)
    (isString_plain (s := "traceEvents".toList) (by decide)) harr))
  unfold document
  simpa using this

example : ∀ a ∈ exampleContext.threadNames, NameRepresentable a := by
  intro a ha
  have : a = (7, "a".toList) ∨ a = (8, "b".toList) := by simpa [exampleContext] using ha
  rcases this with rfl | rfl <;> exact ⟨by decide, by decide⟩

/-- A quote in a thread's name makes the document illegal. -/
theorem C29_refuted_name : ¬ Legal (document 1 [(1, ['"'])] []) :=
  not_legal (by decide +kernel)

/-- A name can also inject members and whole objects: the document is legal but lists two
metadata objects for one thread. -/
theorem C29_refuted_injection :
    document 1 [(1, "a\"}},{\"x\":{\"y\":\"".toList)] [] =
      ("{\"traceEvents\":[{\"name\":\"thread_name\",\"ph\":\"M\",\"pid\":1,\"tid\":1," ++
        "\"args\":{\"name\":\"a\"}},{\"x\":{\"y\":\"\"}}]}").toList := by
  decide +kernel

/-- Thread ids from 2^31 are shown as negative numbers. -/
theorem C29_refuted_tid : threadAssociationToString 1 (2 ^ 31, "a".toList) =
    ("{\"name\":\"thread_name\",\"ph\":\"M\",\"pid\":1,\"tid\":-2147483648," ++
      "\"args\":{\"name\":\"a\"}}").toList := by
  decide +kernel

/-! ### C30 Saving to a file writes the whole document -/

/-- Whatever the file does, the callback ends, the file contains a prefix of the document,
and if the callback raises no error all of the document has been accepted by `fwrite`. Full
claim: without an error the file contains the document; missing: bytes lost when the file is
closed, which the callback does not notice (`C30_refuted`). -/
theorem C30_save_partial (pid : Int) (env : FileEnv) (ctx : TraceContext)
    (contents : List (Nat × List Event)) (h : ctx.Holds pid contents) (fuel : Nat)
    (hfuel : (document pid ctx.threadNames (flatEvents contents)).length < fuel) :
    (env.canOpen = false ∧ fileStop pid env fuel ctx = some (.throw .systemError, none)) ∨
    (env.canOpen = true ∧ ∃ r file, fileStop pid env fuel ctx = some (r, some file) ∧
      file <+: document pid ctx.threadNames (flatEvents contents) ∧
      ((r = .ok () ∧ ((∀ s, s.length ≤ env.keeps s) →
          file = document pid ctx.threadNames (flatEvents contents))) ∨
       (r = .throw .runtimeError ∧ ∃ n s, env.accepts n s < s.length))) := by
  obtain ⟨x, e1, e2, -, e4⟩ := make_spec h
  cases ho : env.canOpen with
  | false => left; exact ⟨rfl, by simp [fileStop, ho]⟩
  | true =>
    right
    refine ⟨rfl, ?_⟩
    obtain ⟨r, w, f1, f2⟩ := saveLoop_spec env fuel x 0 [] e2 (by rw [e4]; exact hfuel)
    rw [e4] at f2
    refine ⟨r, w.take (env.keeps w), by simp only [fileStop, ho, if_true, e1, f1], ?_, ?_⟩
    · rcases f2 with ⟨-, rfl⟩ | ⟨-, hp, -⟩
      · exact List.take_prefix _ _
      · exact (List.take_prefix _ _).trans hp
    · rcases f2 with ⟨hr, rfl⟩ | ⟨hr, -, hs⟩
      · exact Or.inl ⟨hr, fun hk => by rw [List.take_of_length_le (hk _)]; rfl⟩
      · exact Or.inr ⟨hr, hs⟩

/-- A file that accepts and keeps every byte receives the whole document, without error. -/
theorem C30_success (pid : Int) (env : FileEnv) (ctx : TraceContext)
    (contents : List (Nat × List Event)) (h : ctx.Holds pid contents) (fuel : Nat)
    (hfuel : (document pid ctx.threadNames (flatEvents contents)).length < fuel)
    (ho : env.canOpen = true) (ha : ∀ n s, s.length ≤ env.accepts n s)
    (hk : ∀ s, s.length ≤ env.keeps s) :
    fileStop pid env fuel ctx =
      some (.ok (), some (document pid ctx.threadNames (flatEvents contents))) := by
  rcases C30_save_partial pid env ctx contents h fuel hfuel with ⟨h1, -⟩ | ⟨-, r, file, h2, -, h3⟩
  · rw [ho] at h1; cases h1
  · rcases h3 with ⟨rfl, h4⟩ | ⟨-, n, s, h4⟩
    · rw [h2, h4 hk]
    · exact absurd (ha n s) (by omega)

/-- A full disk noticed only when the file is closed. -/
def fullDisk : FileEnv := { canOpen := true, accepts := fun _ s => s.length, keeps := fun _ => 0 }

/-- The file is left empty and no error is raised. -/
theorem C30_refuted : fileStop 42 fullDisk 1000 exampleContext = some (.ok (), some []) := by
  have hd : (document 42 exampleContext.threadNames (flatEvents [(7, [exampleEvent])])).length < 1000 := by
    decide +kernel
  obtain ⟨x, e1, e2, -, e4⟩ := make_spec exampleContext_holds
  obtain ⟨r, w, f1, f2⟩ := saveLoop_spec fullDisk 1000 x 0 [] e2 (by rw [e4]; exact hd)
  rcases f2 with ⟨rfl, -⟩ | ⟨-, -, n, s, hs⟩
  · simp only [fileStop, e1, f1]
    rfl
  · simp [fullDisk] at hs

/-! ### C31 Save path expansion -/

/-- The path used is the configured path with its first `%p` replaced by the process id and
its first `%d` replaced by the time stamp. -/
theorem C31_path (path : Str) (pid : Int) (now : Tm) :
    generateFilePath path pid now = expand (fmtInt pid) (timestamp now) true true path := by
  have key : ∀ (n : Nat) (c : Char), c ∈ Nat.toDigits 10 n → Digit c := fun n c h =>
    (digit_iff _).2 (isDigit_toDigits h)
  have hmem : ∀ c ∈ fmtInt pid, Digit c ∨ c = '-' := by
    intro c hc
    unfold fmtInt at hc
    split at hc
    · rcases List.mem_cons.1 hc with h | h
      · exact Or.inr h
      · exact Or.inl (key _ _ h)
    · exact Or.inl (key _ _ hc)
  have hne : fmtInt pid ≠ [] := by
    unfold fmtInt
    split
    · simp
    · simp
  rw [expand_both _ _ (fun h => absurd (hmem _ h) (by decide)) (fun h => absurd (hmem _ h) (by decide)) hne]
  rfl

/-- The process id in the path is the decimal representation of the id. -/
theorem C31_pid (pid : Int) : Number pid (fmtInt pid) := number_fmtInt pid

/-- The time stamp is `YYYY.MM.DDTHH.MM.SSZ`, each part a decimal number of fixed width, 20
bytes in all. -/
theorem C31_timestamp (t : Tm) (hy : t.year < 10000) (hmo : t.month < 100) (hd : t.day < 100)
    (hh : t.hour < 100) (hmi : t.min < 100) (hs : t.sec < 100) :
    ∃ y mo d h mi s, timestamp t = y ++ '.' :: mo ++ '.' :: d ++ 'T' :: h ++ '.' :: mi ++ '.' :: s ++ ['Z'] ∧
      (timestamp t).length = 20 ∧
      (IsDigits y ∧ y.length = 4 ∧ digitsVal y = t.year) ∧
      (IsDigits mo ∧ mo.length = 2 ∧ digitsVal mo = t.month) ∧
      (IsDigits d ∧ d.length = 2 ∧ digitsVal d = t.day) ∧
      (IsDigits h ∧ h.length = 2 ∧ digitsVal h = t.hour) ∧
      (IsDigits mi ∧ mi.length = 2 ∧ digitsVal mi = t.min) ∧
      (IsDigits s ∧ s.length = 2 ∧ digitsVal s = t.sec) := by
  have l4 := length_padZero (w := 4) (n := t.year) (by omega) (by omega)
  have lmo := length_padZero (w := 2) (n := t.month) (by omega) (by omega)
  have ld := length_padZero (w := 2) (n := t.day) (by omega) (by omega)
  have lh := length_padZero (w := 2) (n := t.hour) (by omega) (by omega)
  have lmi := length_padZero (w := 2) (n := t.min) (by omega) (by omega)
  have ls := length_padZero (w := 2) (n := t.sec) (by omega) (by omega)
  refine ⟨_, _, _, _, _, _, ?_, ?_,
    ⟨isDigits_padZero 4 t.year, l4, digitsVal_padZero _ _⟩,
    ⟨isDigits_padZero 2 t.month, lmo, digitsVal_padZero _ _⟩,
    ⟨isDigits_padZero 2 t.day, ld, digitsVal_padZero _ _⟩,
    ⟨isDigits_padZero 2 t.hour, lh, digitsVal_padZero _ _⟩,
    ⟨isDigits_padZero 2 t.min, lmi, digitsVal_padZero _ _⟩,
    ⟨isDigits_padZero 2 t.sec, ls, digitsVal_padZero _ _⟩⟩
  · simp [timestamp]
  · simp [timestamp, l4, lmo, ld, lh, lmi, ls]

example : generateFilePath "%%p/%d.%d.%p".toList 42 ⟨2016, 1, 2, 3, 4, 5⟩ =
    "%42/2016.01.02T03.04.05Z.%d.%p".toList := by decide

end Phosphor
