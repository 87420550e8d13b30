import Verif.Model.Macros
import Verif.Props.Event
import Verif.Props.Guards
/-
Properties C66, C67 and C68: what the trace macros record, what they evaluate, and the
compiled-out interface.
-/
namespace Phosphor
namespace Macro

/-! ### C66 The recorded event is the one the macro names -/

/-- The families of macros that record one event at the time of the call. -/
inductive Family
  | start | stop | instant | global | asyncStart | asyncEnd
  deriving DecidableEq, Repr

/-- The macro of a family for a list of named arguments. The first argument of an asynchronous
macro is its id, whose name is not the user's. -/
def macroOf (en : Bool) (category name : Str) : Family → List (Str × ArgE) → Option (MW → MW)
  | .start, [] => some (TRACE_EVENT_START0 en category name)
  | .start, [(n, a)] => some (TRACE_EVENT_START1 en category name n a)
  | .start, [(n, a), (m, b)] => some (TRACE_EVENT_START2 en category name n a m b)
  | .stop, [] => some (TRACE_EVENT_END0 en category name)
  | .stop, [(n, a)] => some (TRACE_EVENT_END1 en category name n a)
  | .stop, [(n, a), (m, b)] => some (TRACE_EVENT_END2 en category name n a m b)
  | .instant, [] => some (TRACE_INSTANT0 en category name)
  | .instant, [(n, a)] => some (TRACE_INSTANT1 en category name n a)
  | .instant, [(n, a), (m, b)] => some (TRACE_INSTANT2 en category name n a m b)
  | .global, [] => some (TRACE_GLOBAL0 en category name)
  | .global, [(n, a)] => some (TRACE_GLOBAL1 en category name n a)
  | .global, [(n, a), (m, b)] => some (TRACE_GLOBAL2 en category name n a m b)
  | .asyncStart, [(_, a)] => some (TRACE_ASYNC_START0 en category name a)
  | .asyncStart, [(_, a), (m, b)] => some (TRACE_ASYNC_START1 en category name a m b)
  | .asyncEnd, [(_, a)] => some (TRACE_ASYNC_END0 en category name a)
  | .asyncEnd, [(_, a), (m, b)] => some (TRACE_ASYNC_END1 en category name a m b)
  | _, _ => none

/-- The values of arguments evaluated one after the other. -/
def valuesOf : List ArgE → List Nat → List CVal
  | [], _ => []
  | a :: as, ev => a.val (ev.count a.id) :: valuesOf as (ev ++ [a.id])

/-- The phase and the members that go with it in the Trace Event Format: `B`/`E` begin and end,
`i` with scope thread or global, `b`/`e` asynchronous with the id in hexadecimal. -/
def phaseText (ids : List Nat) : Family → Str × Str
  | .start => (['B'], [])
  | .stop => (['E'], [])
  | .instant => (['i'], ",\"s\":\"t\"".toList)
  | .global => (['i'], ",\"s\":\"g\"".toList)
  | .asyncStart => (['b'], ",\"id\": \"0x".toList ++ fmtHex ids.head! ++ "\"".toList)
  | .asyncEnd => (['e'], ",\"id\": \"0x".toList ++ fmtHex ids.head! ++ "\"".toList)

/-- The names under which the arguments appear. -/
def shownNames : Family → List Str → List Str
  | .asyncStart, _ :: ns => "id".toList :: ns
  | .asyncEnd, _ :: ns => "id_end".toList :: ns
  | _, ns => ns

/-- The JSON text of an event with the given members. -/
def eventText (name category : Str) (phase : Str × Str) (time : BitVec 64) (pid : Int) (tid : BitVec 32)
    (args : List (Str × Str)) : Str :=
  "{\"name\":".toList ++ toJson name ++ ",\"cat\":".toList ++ toJson category
    ++ ",\"ph\":\"".toList ++ phase.1 ++ "\"".toList ++ phase.2 ++ ",\"ts\":".toList ++ fmtMicros time
    ++ ",\"pid\":".toList ++ fmtInt pid ++ ",\"tid\":".toList ++ fmtNat tid.toNat
    ++ ",\"args\":{".toList ++ commaJoin (args.map fun a => toJson a.1 ++ ':' :: a.2)
    ++ "}}".toList

theorem phase_async {t : TraceArg} {n : Nat} (h : asyncId t = some n) :
    ∃ w, t.asWord = .ok w ∧ w.toNat = n := by
  cases t <;> simp [asyncId] at h
  · exact ⟨_, rfl, h⟩
  · exact ⟨_, rfl, h⟩

/-- Whether a family is asynchronous. -/
def Family.isAsync : Family → Bool
  | .asyncStart | .asyncEnd => true
  | _ => false

/-- The text of an event, by its present arguments. -/
theorem text_of {e : Event} {pid : Int} {tid : BitVec 32} {ph ex : Str}
    (ht : e.typeToJson = .ok (ph, ex)) {args : List (Str × Str)}
    {pa : List (Option Str × TraceArg × ArgType)} (hpa : presentArgs e = pa)
    (ha : List.Forall₂ (fun (a : Option Str × TraceArg × ArgType) (t : Str × Str) =>
      a.1 = some t.1 ∧ a.2.1.toStr a.2.2 = .ok t.2) pa args) :
    e.toJson pid tid = .ok (eventText e.tpi.name e.tpi.category (ph, ex)
      e.time pid tid args) := by
  rw [C60_args, hpa]
  refine ⟨ph, ex, args.map (fun a => toJson a.1 ++ ':' :: a.2), ht, ?_, ?_⟩
  · clear hpa
    induction ha with
    | nil => exact .nil
    | cons h _ ih => exact .cons ⟨_, _, h.1, h.2, rfl⟩ ih
  · unfold eventText; rfl

/-- The event type of a family. -/
def Family.type : Family → EventType
  | .start => .syncStart
  | .stop => .syncEnd
  | .instant => .instant
  | .global => .globalInstant
  | .asyncStart => .asyncStart
  | .asyncEnd => .asyncEnd

theorem phase_text (k : Family) (e : Event) (ids : List Nat) (hk : e.tpi.type = k.type)
    (hid : k.isAsync = true → ∃ i, ids = [i] ∧ asyncId e.args.1 = some i) :
    e.typeToJson = .ok (phaseText ids k) := by
  unfold Event.typeToJson
  cases k <;> simp only [Family.type] at hk <;> rw [hk] <;> dsimp only [phaseText]
  case asyncStart =>
    obtain ⟨i, rfl, hi⟩ := hid rfl
    obtain ⟨x, hx, rfl⟩ := phase_async hi
    rw [hx]; rfl
  case asyncEnd =>
    obtain ⟨i, rfl, hi⟩ := hid rfl
    obtain ⟨x, hx, rfl⟩ := phase_async hi
    rw [hx]; rfl

theorem user_text {a : ArgE} {w : MW} {t : Str}
    (h : (a.val (w.evals.count a.id)).asArgument.toStr (a.val (w.evals.count a.id)).getType = .ok t) :
    ((Src.user a).eval w).1.toStr a.ty = .ok t := by
  rw [a.typed] at h; exact h

theorem ids_of {vs : List CVal} {ids : List Nat} {v : CVal} {l : List CVal} (hv : vs = v :: l)
    (h : List.Forall₂ (fun (v : CVal) i => asyncId v.asArgument = some i) (vs.take 1) ids) :
    ∃ i, ids = [i] ∧ asyncId v.asArgument = some i := by
  subst hv
  cases h with | cons hi hn => cases hn; exact ⟨_, rfl, hi⟩

theorem call_text (k : Family) (category name : Str) (nA nB : Option Str) (tA tB : ArgType)
    (x y : TraceArg) (ids : List Nat)
    (hid : k.isAsync = true → ∃ i, ids = [i] ∧ asyncId x = some i)
    {pa : List (Option Str × TraceArg × ArgType)} {args : List (Str × Str)}
    (hpa : (if tA = .isNone then [] else if tB = .isNone then [(nA, x, tA)]
      else [(nA, x, tA), (nB, y, tB)]) = pa)
    (ha : List.Forall₂ (fun (a : Option Str × TraceArg × ArgType) (t : Str × Str) =>
      a.1 = some t.1 ∧ a.2.1.toStr a.2.2 = .ok t.2) pa args)
    (now : BitVec 64) (pid : Int) (tid : BitVec 32) :
    ((LogCall.now (mkTpi category name k.type nA tA nB tB) x y).event now).toJson pid tid =
      .ok (eventText name category (phaseText ids k) now pid tid args) := by
  have h1 := phase_text k
    ((LogCall.now (mkTpi category name k.type nA tA nB tB) x y).event now) ids rfl hid
  exact text_of (pid := pid) (tid := tid) h1 hpa ha

theorem event2_calls (category name : Str) (ty : EventType) (nA : Str) (a : Src) (nB : Str)
    (b : Src) (w : MW) :
    (event2 true category name ty nA a nB b w).calls = (b.eval (a.eval w).2).2.calls ++
      [.now (mkTpi category name ty (some nA) a.ty (some nB) b.ty) (a.eval w).1
        (b.eval (a.eval w).2).1] := rfl

/-- C66: a macro of an enabled category evaluates every argument once, in order, and makes one
call whose event exports as: its name, its category, the phase of its family, and exactly its
arguments under their names, each with the text of its own value and type. -/
theorem C66_event (category name : Str) (k : Family) (args : List (Str × ArgE)) (f : MW → MW)
    (hf : macroOf true category name k args = some f)
    (hty : ∀ a ∈ args, a.2.ty ≠ .isNone) (w : MW)
    (texts : List Str)
    (htx : List.Forall₂ (fun (v : CVal) t => v.asArgument.toStr v.getType = .ok t)
      (valuesOf (args.map (·.2)) w.evals) texts)
    (ids : List Nat)
    (hid : k.isAsync = true → List.Forall₂ (fun (v : CVal) i => asyncId v.asArgument = some i)
      ((valuesOf (args.map (·.2)) w.evals).take 1) ids) :
    ∃ c, (f w).calls = w.calls ++ [c] ∧ (f w).evals = w.evals ++ args.map (·.2.id) ∧
      ∀ now pid tid, (c.event now).toJson pid tid = .ok (eventText name category (phaseText ids k)
        now pid tid ((shownNames k (args.map (·.1))).zip texts)) := by
  match args, texts, htx with
  | [], [], _ =>
    have he : f = event2 true category name k.type [] .noneType [] .noneType := by
      cases k <;> simp only [macroOf, Option.some.injEq, reduceCtorEq] at hf <;> subst hf <;> rfl
    have hk : k.isAsync = false := by
      cases k <;> simp only [macroOf, reduceCtorEq] at hf <;> rfl
    have hn : (shownNames k (List.map (fun x => x.1) ([] : List (Str × ArgE)))).zip
        ([] : List Str) = [] := by
      cases k <;> rfl
    subst he
    rw [hn]
    exact ⟨_, event2_calls .., by simp [event2, Src.eval, MW.call],
      call_text k category name _ _ _ _ _ _ ids (fun h => by rw [hk] at h; cases h)
        (if_pos rfl) .nil⟩
  | [(n, a)], [t], .cons ht _ =>
    have hta : a.ty ≠ .isNone := hty (n, a) (by simp)
    obtain ⟨n', he, hn⟩ : ∃ n', f = event2 true category name k.type n' (.user a) [] .noneType ∧
        (shownNames k ([(n, a)].map (·.1))).zip [t] = [(n', t)] := by
      cases k <;> simp only [macroOf, Option.some.injEq] at hf <;> subst hf <;>
        exact ⟨_, rfl, rfl⟩
    subst he
    rw [hn]
    exact ⟨_, event2_calls .., by simp [event2, Src.eval, MW.call],
      call_text k category name _ _ _ _ _ _ ids (fun h => ids_of rfl (hid h))
        ((if_neg hta).trans (if_pos rfl)) (.cons ⟨rfl, user_text ht⟩ .nil)⟩
  | [(n, a), (m, b)], [t, u], .cons ht (.cons hu _) =>
    have hta : a.ty ≠ .isNone := hty (n, a) (by simp)
    have htb : b.ty ≠ .isNone := hty (m, b) (by simp)
    obtain ⟨n', he, hn⟩ : ∃ n', f = event2 true category name k.type n' (.user a) m (.user b) ∧
        (shownNames k ([(n, a), (m, b)].map (·.1))).zip [t, u] = [(n', t), (m, u)] := by
      cases k <;> simp only [macroOf, Option.some.injEq] at hf <;> subst hf <;>
        exact ⟨_, rfl, rfl⟩
    subst he
    rw [hn]
    exact ⟨_, event2_calls .., by simp [event2, Src.eval, MW.call],
      call_text k category name _ _ _ _ _ _ ids (fun h => ids_of rfl (hid h))
        ((if_neg hta).trans (if_neg htb)) (.cons ⟨rfl, user_text ht⟩
        (.cons ⟨rfl, user_text (w := ((Src.user a).eval w).2) hu⟩ .nil))⟩
  | _ :: _ :: _ :: _, _, _ => cases k <;> simp [macroOf] at hf

/-- C66: a macro of a disabled category evaluates nothing and logs nothing. -/
theorem C66_disabled (category name : Str) (k : Family) (args : List (Str × ArgE)) (f : MW → MW)
    (hf : macroOf false category name k args = some f) (w : MW) : f w = w := by
  match args with
  | [] =>
    cases k <;> simp only [macroOf, Option.some.injEq, reduceCtorEq] at hf <;> subst hf <;> rfl
  | [(_, _)] => cases k <;> simp only [macroOf, Option.some.injEq] at hf <;> subst hf <;> rfl
  | [(_, _), (_, _)] =>
    cases k <;> simp only [macroOf, Option.some.injEq] at hf <;> subst hf <;> rfl
  | _ :: _ :: _ :: _ => cases k <;> simp [macroOf] at hf

/-- `TRACE_INSTANT2("cat", "name", "n", i++, "s", "x")` when `i` is 41 after one evaluation. -/
def exArg1 : ArgE := ⟨7, .isInt, fun k => .int (BitVec.ofNat 32 (40 + k)), fun _ => rfl⟩
/-- A string argument. -/
def exArg2 : ArgE := ⟨8, .isString, fun _ => .cstring 0x1000#64 "x".toList, fun _ => rfl⟩

example : ∃ c, TRACE_INSTANT2 true "cat".toList "name".toList "n".toList exArg1 "s".toList exArg2
      ⟨[7], []⟩ = ⟨[7, 7, 8], [c]⟩ ∧
    (c.event 1500#64).toJson 1 2#32 = .ok ("{\"name\":\"name\",\"cat\":\"cat\",\"ph\":\"i\",\"s\":\"t\"," ++
      "\"ts\":1.500,\"pid\":1,\"tid\":2,\"args\":{\"n\":41,\"s\":\"x\"}}").toList :=
  ⟨_, rfl, by decide +kernel⟩

/-! ### Complete events with given times -/

/-- An operand whose value does not depend on how often it was evaluated. -/
def TTerm.Stable (t : TTerm) : Prop := ∀ k, t.val k = t.val 0

/-- All operands of a sum are stable. -/
def TimeExpr.Stable (e : TimeExpr) : Prop := e.head.Stable ∧ ∀ p ∈ e.rest, p.2.Stable

/-- The value of the signed operands after the first. -/
def restSum : List (Bool × TTerm) → Int
  | [] => 0
  | (op, t) :: l => (if op then t.val 0 else - t.val 0) + restSum l

/-- The value of a sum. -/
def TimeExpr.value (e : TimeExpr) : Int := e.head.val 0 + restSum e.rest

/-- The numbers of the operands, in order. -/
def TimeExpr.ids (e : TimeExpr) : List Nat := e.head.id :: e.rest.map (·.2.id)

theorem chronoOp_count {op : Bool} {x y z : TVal} (h : chronoOp op x y = .ok z) :
    z.count = x.count + if op then y.count else - y.count := by
  cases op <;> cases x <;> cases y <;> simp only [chronoOp] at h <;>
    first
    | (split at h
       · cases h; simp [TVal.count]; try omega
       · cases h)
    | cases h

theorem TTerm.eval_stable {t : TTerm} (h : t.Stable) (w : MW) :
    (t.eval w).1.count = t.val 0 ∧ (t.eval w).2 = ⟨w.evals ++ [t.id], w.calls⟩ := by
  refine ⟨?_, rfl⟩
  unfold TTerm.eval
  dsimp only
  split <;> exact h _

theorem evalRest_spec {l : List (Bool × TTerm)} (hl : ∀ p ∈ l, p.2.Stable) {x v : TVal} {w w' : MW}
    (h : evalRest x l w = .ok (v, w')) :
    v.count = x.count + restSum l ∧ w' = ⟨w.evals ++ l.map (·.2.id), w.calls⟩ := by
  induction l generalizing x w with
  | nil =>
    simp only [evalRest] at h
    cases h
    exact ⟨by simp [restSum], by simp⟩
  | cons p l ih =>
    obtain ⟨op, t⟩ := p
    have ht : t.Stable := hl (op, t) (by simp)
    have he := TTerm.eval_stable ht w
    simp only [evalRest] at h
    cases hx : chronoOp op x (t.eval w).1 with
    | throw e => rw [hx] at h; cases h
    | ub => rw [hx] at h; cases h
    | ok z =>
      rw [hx] at h
      obtain ⟨h1, h2⟩ := ih (fun p hp => hl p (by simp [hp])) h
      have hc := chronoOp_count hx
      refine ⟨?_, ?_⟩
      · rw [h1, hc, he.1]; simp only [restSum]; omega
      · rw [h2, he.2]; simp

theorem TimeExpr.eval_spec {e : TimeExpr} (he : e.Stable) {v : TVal} {w w' : MW}
    (h : e.eval w = .ok (v, w')) :
    v.count = e.value ∧ w' = ⟨w.evals ++ e.ids, w.calls⟩ := by
  have h1 := TTerm.eval_stable he.1 w
  have h' : evalRest (e.head.eval w).1 e.rest (e.head.eval w).2 = .ok (v, w') := h
  obtain ⟨h2, h3⟩ := evalRest_spec he.2 h'
  refine ⟨by rw [h2, h1.1]; rfl, ?_⟩
  rw [h3, h1.2]
  simp [TimeExpr.ids]

theorem restSum_append (l l' : List (Bool × TTerm)) : restSum (l ++ l') = restSum l + restSum l' := by
  induction l with
  | nil => simp [restSum]
  | cons p l ih => simp only [List.cons_append, restSum, ih]; omega

/-- The macro for a complete event with a list of named arguments. -/
def completeOf (en : Bool) (category name : Str) (start stop : TimeExpr) :
    List (Str × ArgE) → Option (MW → Res MW)
  | [] => some (TRACE_COMPLETE0 en category name start stop)
  | [(n, a)] => some (TRACE_COMPLETE1 en category name start stop n a)
  | [(n, a), (m, b)] => some (TRACE_COMPLETE2 en category name start stop n a m b)
  | _ => none

theorem stable_paste {s e : TimeExpr} (hs : s.Stable) (he : e.Stable) : (pasteMinus e s).Stable := by
  refine ⟨he.1, fun p hp => ?_⟩
  simp only [pasteMinus, List.mem_append, List.mem_cons] at hp
  rcases hp with hp | rfl | hp
  · exact he.2 p hp
  · exact hs.1
  · exact hs.2 p hp

theorem toPoint_ok {v : TVal} {t : Int} (h : v.toPoint = .ok t) : v.count = t := by
  cases v <;> simp only [TVal.toPoint] at h <;> cases h; rfl

theorem toDur_ok {v : TVal} {t : Int} (h : v.toDur = .ok t) : v.count = t := by
  cases v <;> simp only [TVal.toDur] at h <;> cases h; rfl

theorem complete2_spec {category name : Str} {ty : EventType} {start dur : TimeExpr} {nA nB : Str}
    {a b : Src} {w w' : MW} (hs : start.Stable) (hd : dur.Stable)
    (h : complete2 true category name ty start dur nA a nB b w = .ok w') :
    ∃ w1, w1 = (⟨w.evals ++ start.ids ++ dur.ids, w.calls⟩ : MW) ∧
      w' = ((b.eval (a.eval w1).2).2.call (.timed (mkTpi category name ty (some nA) a.ty (some nB) b.ty)
        start.value dur.value (a.eval w1).1 (b.eval (a.eval w1).2).1)) := by
  refine ⟨_, rfl, ?_⟩
  unfold complete2 at h
  simp only [if_true] at h
  cases h1 : start.eval w with
  | throw e => rw [h1] at h; cases h
  | ub => rw [h1] at h; cases h
  | ok p =>
    obtain ⟨v, w1⟩ := p
    rw [h1] at h
    simp only [Res.bind_ok] at h
    obtain ⟨hv, hw⟩ := TimeExpr.eval_spec hs h1
    cases h2 : v.toPoint with
    | throw e => rw [h2] at h; cases h
    | ub => rw [h2] at h; cases h
    | ok t =>
      rw [h2] at h
      simp only [Res.bind_ok] at h
      cases h3 : dur.eval w1 with
      | throw e => rw [h3] at h; cases h
      | ub => rw [h3] at h; cases h
      | ok p =>
        obtain ⟨u, w2⟩ := p
        rw [h3] at h
        simp only [Res.bind_ok] at h
        obtain ⟨hu, hw2⟩ := TimeExpr.eval_spec hd h3
        cases h4 : u.toDur with
        | throw e => rw [h4] at h; cases h
        | ub => rw [h4] at h; cases h
        | ok d =>
          rw [h4] at h
          simp only [Res.bind_ok] at h
          have h := Res.ok.inj h
          rw [← h, ← hv, ← hu, toPoint_ok h2, toDur_ok h4]
          rw [hw] at hw2
          rw [hw2]

theorem timed_text (category name : Str) (nA nB : Option Str) (tA tB : ArgType)
    (x y : TraceArg) (s d : Int)
    {pa : List (Option Str × TraceArg × ArgType)} {args : List (Str × Str)}
    (hpa : (if tA = .isNone then [] else if tB = .isNone then [(nA, x, tA)]
      else [(nA, x, tA), (nB, y, tB)]) = pa)
    (ha : List.Forall₂ (fun (a : Option Str × TraceArg × ArgType) (t : Str × Str) =>
      a.1 = some t.1 ∧ a.2.1.toStr a.2.2 = .ok t.2) pa args)
    (now : BitVec 64) (pid : Int) (tid : BitVec 32) :
    ((LogCall.timed (mkTpi category name .complete nA tA nB tB) s d x y).event now).toJson pid tid =
      .ok (eventText name category (['X'], ",\"dur\":".toList ++ fmtMicros (BitVec.ofInt 64 d))
        (BitVec.ofInt 64 s) pid tid args) :=
  text_of (e := (LogCall.timed (mkTpi category name .complete nA tA nB tB) s d x y).event now)
    (pid := pid) (tid := tid) rfl hpa ha

/-- C66: a complete event of an enabled category has the start time given; its duration is the
value of `end`, minus the *first operand* of `start`, plus its other operands. It exports under
its name, category and arguments. -/
theorem C66_complete (category name : Str) (start stop : TimeExpr) (args : List (Str × ArgE))
    (f : MW → Res MW) (hf : completeOf true category name start stop args = some f)
    (hs : start.Stable) (he : stop.Stable) (hty : ∀ a ∈ args, a.2.ty ≠ .isNone)
    (w w' : MW) (h : f w = .ok w') (texts : List Str)
    (htx : List.Forall₂ (fun (v : CVal) t => v.asArgument.toStr v.getType = .ok t)
      (valuesOf (args.map (·.2)) (w.evals ++ start.ids ++ (stop.ids ++ start.ids))) texts) :
    ∃ c, w'.calls = w.calls ++ [c] ∧
      w'.evals = w.evals ++ start.ids ++ (stop.ids ++ start.ids) ++ args.map (·.2.id) ∧
      ∀ now pid tid, (c.event now).toJson pid tid = .ok (eventText name category
        (['X'], ",\"dur\":".toList ++ fmtMicros
          (BitVec.ofInt 64 (stop.value - start.head.val 0 + restSum start.rest)))
        (BitVec.ofInt 64 start.value) pid tid ((args.map (·.1)).zip texts)) := by
  have hp := stable_paste hs he
  have hv : (pasteMinus stop start).value = stop.value - start.head.val 0 + restSum start.rest := by
    simp only [TimeExpr.value, pasteMinus, restSum_append, restSum]
    simp only [Bool.false_eq_true, if_false]; omega
  have hi : (pasteMinus stop start).ids = stop.ids ++ start.ids := by
    simp [TimeExpr.ids, pasteMinus]
  match args, texts, htx with
  | [], [], _ =>
    simp only [completeOf, Option.some.injEq] at hf
    subst hf
    simp only [TRACE_COMPLETE0, complete0] at h
    obtain ⟨w1, rfl, rfl⟩ := complete2_spec hs hp h
    rw [hi, hv]
    exact ⟨_, rfl, by simp [Src.eval, MW.call], timed_text _ _ _ _ _ _ _ _ _ _ (if_pos rfl) .nil⟩
  | [(n, a)], [t], .cons ht _ =>
    have hta : a.ty ≠ .isNone := hty (n, a) (by simp)
    simp only [completeOf, Option.some.injEq] at hf
    subst hf
    simp only [TRACE_COMPLETE1, complete1] at h
    obtain ⟨w1, rfl, rfl⟩ := complete2_spec hs hp h
    rw [hi, hv]
    exact ⟨_, rfl, by simp [Src.eval, MW.call], timed_text _ _ _ _ _ _ _ _ _ _
      ((if_neg hta).trans (if_pos rfl))
      (.cons ⟨rfl, user_text (w := ⟨w.evals ++ start.ids ++ (stop.ids ++ start.ids), w.calls⟩) ht⟩ .nil)⟩
  | [(n, a), (m, b)], [t, u], .cons ht (.cons hu _) =>
    have hta : a.ty ≠ .isNone := hty (n, a) (by simp)
    have htb : b.ty ≠ .isNone := hty (m, b) (by simp)
    simp only [completeOf, Option.some.injEq] at hf
    subst hf
    simp only [TRACE_COMPLETE2] at h
    obtain ⟨w1, rfl, rfl⟩ := complete2_spec hs hp h
    rw [hi, hv]
    exact ⟨_, rfl, by simp [Src.eval, MW.call], timed_text _ _ _ _ _ _ _ _ _ _
      ((if_neg hta).trans (if_neg htb))
      (.cons ⟨rfl, user_text (w := ⟨w.evals ++ start.ids ++ (stop.ids ++ start.ids), w.calls⟩) ht⟩
      (.cons ⟨rfl, user_text (w := ((Src.user a).eval
        ⟨w.evals ++ start.ids ++ (stop.ids ++ start.ids), w.calls⟩).2) hu⟩ .nil))⟩
  | _ :: _ :: _ :: _, _, _ => simp [completeOf] at hf

/-- The duration of a complete event is right exactly when the operands of `start` after the
first sum to zero. -/
theorem C66_duration_iff (start stop : TimeExpr) :
    stop.value - start.head.val 0 + restSum start.rest = stop.value - start.value ↔
      restSum start.rest = 0 := by
  simp only [TimeExpr.value]; omega

/-- C66 for `start` of one operand (a variable, a call or anything in parentheses): the event
lasts from `start` to `end`. Missing: other expressions for `start` (`C66_refuted_duration`). -/
theorem C66_complete_partial (category name : Str) (start stop : TimeExpr)
    (args : List (Str × ArgE)) (f : MW → Res MW)
    (hf : completeOf true category name start stop args = some f) (h1 : start.rest = [])
    (hs : start.Stable) (he : stop.Stable) (hty : ∀ a ∈ args, a.2.ty ≠ .isNone)
    (w w' : MW) (h : f w = .ok w') (texts : List Str)
    (htx : List.Forall₂ (fun (v : CVal) t => v.asArgument.toStr v.getType = .ok t)
      (valuesOf (args.map (·.2)) (w.evals ++ start.ids ++ (stop.ids ++ start.ids))) texts) :
    ∃ c, w'.calls = w.calls ++ [c] ∧
      ∀ now pid tid, (c.event now).toJson pid tid = .ok (eventText name category
        (['X'], ",\"dur\":".toList ++ fmtMicros (BitVec.ofInt 64 (stop.value - start.value)))
        (BitVec.ofInt 64 start.value) pid tid ((args.map (·.1)).zip texts)) := by
  obtain ⟨c, hc, _, ht⟩ := C66_complete category name start stop args f hf hs he hty w w' h texts htx
  refine ⟨c, hc, fun now pid tid => ?_⟩
  rw [ht, (C66_duration_iff start stop).2 (by rw [h1]; rfl)]

/-- Two time points in variables: the macro compiles and runs, whatever their values (with a
difference in range). -/
theorem C66_complete_usage (category name : Str) (s e : TTerm) (hs : s.Stable) (he : e.Stable)
    (hsp : s.isPoint = true) (hep : e.isPoint = true)
    (hr : inRange (e.val 0 - s.val 0) = true) (args : List (Str × ArgE)) (f : MW → Res MW)
    (hf : completeOf true category name ⟨s, []⟩ ⟨e, []⟩ args = some f) (w : MW) :
    ∃ w', f w = .ok w' := by
  have key : ∀ (nA : Str) (a : Src) (nB : Str) (b : Src),
      ∃ w', complete2 true category name .complete ⟨s, []⟩ (pasteMinus ⟨e, []⟩ ⟨s, []⟩) nA a nB b w
        = .ok w' := by
    intro nA a nB b
    unfold complete2
    simp only [if_true, TimeExpr.eval, TTerm.eval, evalRest, pasteMinus, hsp, hep, Res.bind_ok,
      TVal.toPoint, List.nil_append, chronoOp, hs _, he _, hr]
    exact ⟨_, rfl⟩
  match args with
  | [] => simp only [completeOf, Option.some.injEq] at hf; subst hf; exact key [] .noneType [] .noneType
  | [(n, a)] =>
    simp only [completeOf, Option.some.injEq] at hf; subst hf; exact key n (.user a) [] .noneType
  | [(n, a), (m, b)] => simp only [completeOf, Option.some.injEq] at hf; subst hf; exact key ..
  | _ :: _ :: _ :: _ => simp [completeOf] at hf

/-- A time point in a variable. -/
def exPoint (i : Nat) (t : Int) : TTerm := ⟨i, true, fun _ => t⟩
/-- A duration in a variable. -/
def exDur (i : Nat) (t : Int) : TTerm := ⟨i, false, fun _ => t⟩

example : ∃ c, TRACE_COMPLETE0 true "cat".toList "name".toList ⟨exPoint 1 1000, []⟩
      ⟨exPoint 2 3500, []⟩ ⟨[], []⟩ = .ok ⟨[1, 2, 1], [c]⟩ ∧
    (c.event 0#64).toJson 1 2#32 = .ok ("{\"name\":\"name\",\"cat\":\"cat\",\"ph\":\"X\",\"dur\":2.500," ++
      "\"ts\":1.000,\"pid\":1,\"tid\":2,\"args\":{}}").toList :=
  ⟨_, rfl, by decide +kernel⟩

/-- C66 fails for other expressions: `TRACE_COMPLETE0(cat, name, t + d, e)` with `t` = 100 ns,
`d` = 10 ns and `e` = 200 ns records an event that starts at 110 and lasts 110, not 90. -/
theorem C66_refuted_duration (category name : Str) :
    ∃ (start stop : TimeExpr) (w' : MW) (tpi : TracepointInfo), start.Stable ∧ stop.Stable ∧
      start.value = 110 ∧ stop.value = 200 ∧
      TRACE_COMPLETE0 true category name start stop ⟨[], []⟩ = .ok w' ∧
      w'.calls = [.timed tpi 110 110 .none .none] :=
  ⟨⟨exPoint 1 100, [(true, exDur 2 10)]⟩, ⟨exPoint 3 200, []⟩, _, _,
    ⟨fun _ => rfl, by simp [exDur, TTerm.Stable]⟩, ⟨fun _ => rfl, by simp⟩, rfl, rfl, rfl, rfl⟩

/-! ### Scoped events -/

/-- The scoped macro for a list of named arguments; `func`: the variant that takes its name from
the function. -/
def scopedOf (en : Bool) (category name : Str) (func : Bool) :
    List (Str × ArgE) → Option (MW → (TracepointInfo × Bool × CVal × CVal) × MW)
  | [] => some (if func then TRACE_FUNCTION0 name en category else TRACE_EVENT0 en category name)
  | [(n, a)] => some (if func then TRACE_FUNCTION1 name en category n a
      else TRACE_EVENT1 en category name n a)
  | [(n, a), (m, b)] => some (if func then TRACE_FUNCTION2 name en category n a m b
      else TRACE_EVENT2 en category name n a m b)
  | _ => none

/-- C66: the guard of a scoped macro is enabled iff the category is at entry, and the event it
logs on leaving the scope (C49 gives its times) exports under the name, category and arguments
of the macro, with the values the arguments had at entry. -/
theorem C66_scoped (en : Bool) (category name : Str) (func : Bool) (args : List (Str × ArgE))
    (f : MW → (TracepointInfo × Bool × CVal × CVal) × MW)
    (hf : scopedOf en category name func args = some f)
    (hty : ∀ a ∈ args, a.2.ty ≠ .isNone) (w : MW) (texts : List Str)
    (htx : List.Forall₂ (fun (v : CVal) t => v.asArgument.toStr v.getType = .ok t)
      (valuesOf (args.map (·.2)) w.evals) texts) :
    ∃ tpi v1 v2, (f w).1 = (tpi, en, v1, v2) ∧ ∀ (start d : Int) now pid tid,
      ((LogCall.timed tpi start d v1.asArgument v2.asArgument).event now).toJson pid tid =
        .ok (eventText name category (['X'], ",\"dur\":".toList ++ fmtMicros (BitVec.ofInt 64 d))
          (BitVec.ofInt 64 start) pid tid ((args.map (·.1)).zip texts)) := by
  have key : ∀ (nA : Str) (a : Src) (nB : Str) (b : Src) (l : List (Str × Str))
      (pa : List (Option Str × TraceArg × ArgType)),
      (if a.ty = .isNone then [] else if b.ty = .isNone then
        [(some nA, (a.evalC w).1.asArgument, a.ty)]
        else [(some nA, (a.evalC w).1.asArgument, a.ty),
          (some nB, (b.evalC (a.evalC w).2).1.asArgument, b.ty)]) = pa →
      List.Forall₂ (fun (a : Option Str × TraceArg × ArgType) (t : Str × Str) =>
        a.1 = some t.1 ∧ a.2.1.toStr a.2.2 = .ok t.2) pa l →
      ∃ tpi v1 v2, (scopedMacro en category name nA a nB b w).1 = (tpi, en, v1, v2) ∧
        ∀ (start d : Int) now pid tid,
        ((LogCall.timed tpi start d v1.asArgument v2.asArgument).event now).toJson pid tid =
          .ok (eventText name category (['X'], ",\"dur\":".toList ++ fmtMicros (BitVec.ofInt 64 d))
            (BitVec.ofInt 64 start) pid tid l) :=
    fun nA a nB b l pa hpa hl => ⟨_, _, _, rfl, fun start d =>
      timed_text category name (some nA) (some nB) a.ty b.ty _ _ start d hpa hl⟩
  match args, texts, htx with
  | [], [], _ =>
    cases func <;> simp only [scopedOf, Option.some.injEq] at hf <;> subst hf <;>
      exact key [] .noneType [] .noneType [] [] (if_pos rfl) .nil
  | [(n, a)], [t], .cons ht _ =>
    have hta : a.ty ≠ .isNone := hty (n, a) (by simp)
    cases func <;> simp only [scopedOf, Option.some.injEq] at hf <;> subst hf <;>
      exact key n (.user a) [] .noneType [(n, t)] _ ((if_neg hta).trans (if_pos rfl))
        (.cons ⟨rfl, user_text ht⟩ .nil)
  | [(n, a), (m, b)], [t, u], .cons ht (.cons hu _) =>
    have hta : a.ty ≠ .isNone := hty (n, a) (by simp)
    have htb : b.ty ≠ .isNone := hty (m, b) (by simp)
    cases func <;> simp only [scopedOf, Option.some.injEq] at hf <;> subst hf <;>
      exact key n (.user a) m (.user b) [(n, t), (m, u)] _ ((if_neg hta).trans (if_neg htb))
        (.cons ⟨rfl, user_text ht⟩ (.cons ⟨rfl, user_text (w := ((Src.user a).eval w).2) hu⟩ .nil))
  | _ :: _ :: _ :: _, _, _ => simp [scopedOf] at hf

example : (TRACE_FUNCTION1 "main".toList true "cat".toList "n".toList exArg1 ⟨[], []⟩).1 =
    (⟨"cat".toList, "main".toList, .complete, (some "n".toList, some []), (.isInt, .isNone)⟩, true,
      .int 40#32, .none) := rfl

/-! ### Asynchronous complete events -/

/-- C66: `TRACE_ASYNC_COMPLETE2` of an enabled category logs a start event at `start` and an end
event at `end`. Their names, category and times are those given, their first arguments are the
values of the id at the two evaluations. -/
theorem C66_async_complete (category name : Str) (id : ArgE) (start stop : TimeExpr)
    (hs : start.Stable) (he : stop.Stable) (n1 n2 : Option Str) (a1 a2 : Src) (w w' : MW)
    (h : asyncComplete2 true category name id start stop n1 a1 n2 a2 w = .ok w') :
    ∃ w1 w2 : MW, w1.evals = w.evals ++ start.ids ∧
      w2.evals = (a1.eval ((Src.user id).eval w1).2).2.evals ++ stop.ids ∧
      w'.calls = w.calls ++
        [.timed ⟨category, name, .asyncStart, (some "id".toList, n1), (.isPointer, a1.ty)⟩
          start.value 0 (id.val (w1.evals.count id.id)).asArgument
          (a1.eval ((Src.user id).eval w1).2).1,
         .timed ⟨category, name, .asyncEnd, (some "id_end".toList, n2), (.isPointer, a2.ty)⟩
          stop.value 0 (id.val (w2.evals.count id.id)).asArgument
          (a2.eval ((Src.user id).eval w2).2).1] ∧
      w'.evals = (a2.eval ((Src.user id).eval w2).2).2.evals := by
  have hc : ∀ (a : Src) (w : MW), (a.eval w).2.calls = w.calls := fun a w => by cases a <;> rfl
  unfold asyncComplete2 at h
  simp only [if_true] at h
  cases h1 : start.eval w with
  | throw e => rw [h1] at h; cases h
  | ub => rw [h1] at h; cases h
  | ok p =>
    obtain ⟨v, w1⟩ := p
    rw [h1] at h
    simp only [Res.bind_ok] at h
    obtain ⟨hv, hw⟩ := TimeExpr.eval_spec hs h1
    cases h2 : v.toPoint with
    | throw e => rw [h2] at h; cases h
    | ub => rw [h2] at h; cases h
    | ok t =>
      rw [h2] at h
      simp only [Res.bind_ok] at h
      generalize hm : MW.call _ _ = m at h
      cases h3 : stop.eval m with
      | throw e => rw [h3] at h; cases h
      | ub => rw [h3] at h; cases h
      | ok p =>
        obtain ⟨u, w2⟩ := p
        rw [h3] at h
        simp only [Res.bind_ok] at h
        obtain ⟨hu, hw2⟩ := TimeExpr.eval_spec he h3
        cases h4 : u.toPoint with
        | throw e => rw [h4] at h; cases h
        | ub => rw [h4] at h; cases h
        | ok d =>
          rw [h4] at h
          simp only [Res.bind_ok] at h
          have h := Res.ok.inj h
          refine ⟨w1, w2, by rw [hw], by rw [hw2, ← hm]; rfl, ?_, by rw [← h]; rfl⟩
          rw [← h, ← hv, ← hu, toPoint_ok h2, toPoint_ok h4]
          simp only [MW.call, hc]
          rw [hw2, ← hm]
          simp only [MW.call, hc]
          rw [hw]
          simp [mkTpi, Src.eval]

/-- C66: an asynchronous complete event without arguments, whose id is a word that does not
change, exports as a start event at `start` and an end event at `end` with the same id. The null
argument names are never read. -/
theorem C66_async_complete_text (category name : Str) (id : ArgE) (start stop : TimeExpr)
    (hs : start.Stable) (he : stop.Stable) (x : BitVec 64)
    (hid : ∀ k, (id.val k).asArgument = .word x) (w w' : MW)
    (h : TRACE_ASYNC_COMPLETE0 true category name id start stop w = .ok w') :
    ∃ c d, w'.calls = w.calls ++ [c, d] ∧ ∀ now pid tid,
      (c.event now).toJson pid tid = .ok (eventText name category
        (['b'], ",\"id\": \"0x".toList ++ fmtHex x.toNat ++ "\"".toList)
        (BitVec.ofInt 64 start.value) pid tid [("id".toList, "\"".toList ++ fmtPointer x ++ "\"".toList)]) ∧
      (d.event now).toJson pid tid = .ok (eventText name category
        (['e'], ",\"id\": \"0x".toList ++ fmtHex x.toNat ++ "\"".toList)
        (BitVec.ofInt 64 stop.value) pid tid
          [("id_end".toList, "\"".toList ++ fmtPointer x ++ "\"".toList)]) := by
  obtain ⟨w1, w2, _, _, hc, _⟩ := C66_async_complete category name id start stop hs he none none
    .noneType .noneType w w' h
  rw [hid, hid] at hc
  refine ⟨_, _, hc, fun now pid tid => ⟨?_, ?_⟩⟩
  · exact text_of (e := (LogCall.timed ⟨category, name, .asyncStart, (some "id".toList, none),
        (.isPointer, .isNone)⟩ start.value 0 (.word x) .none).event now) (pid := pid) (tid := tid)
      rfl rfl (.cons ⟨rfl, rfl⟩ .nil)
  · exact text_of (e := (LogCall.timed ⟨category, name, .asyncEnd, (some "id_end".toList, none),
        (.isPointer, .isNone)⟩ stop.value 0 (.word x) .none).event now) (pid := pid) (tid := tid)
      rfl rfl (.cons ⟨rfl, rfl⟩ .nil)

/-- An id expression with a side effect, like `next_id++`. -/
def exNextId : ArgE := ⟨9, .isUint, fun k => .ulong (BitVec.ofNat 64 (5 + k)), fun _ => rfl⟩

/-- C66 fails when evaluating the id changes it: the two events get different ids. -/
theorem C66_refuted_async_id (category name : Str) :
    ∃ (w' : MW) (t u : TracepointInfo),
      TRACE_ASYNC_COMPLETE0 true category name exNextId ⟨exPoint 1 100, []⟩ ⟨exPoint 2 200, []⟩
        ⟨[], []⟩ = .ok w' ∧
      w'.calls = [.timed t 100 0 (.word 5#64) .none, .timed u 200 0 (.word 6#64) .none] :=
  ⟨_, _, _, rfl, rfl⟩

/-! ### C67 Argument expressions are evaluated at most once, and only when needed -/

/-- C67: the macros that record one event at the time of the call evaluate every argument
exactly once when the category is enabled and never otherwise. Missing: the other macros
(`C67_refuted_start`, `C67_refuted_id`, `C67_refuted_scoped`). -/
theorem C67_once_partial (en : Bool) (category name : Str) (k : Family) (args : List (Str × ArgE))
    (f : MW → MW) (hf : macroOf en category name k args = some f) (w : MW) :
    (f w).evals = w.evals ++ if en then args.map (·.2.id) else [] := by
  match args with
  | [] =>
    cases en <;> cases k <;> simp only [macroOf, Option.some.injEq, reduceCtorEq] at hf <;>
      subst hf <;> exact (List.append_nil _).symm
  | [(_, a)] =>
    cases en <;> cases k <;> simp only [macroOf, Option.some.injEq] at hf <;>
      subst hf <;> first | rfl | exact (List.append_nil _).symm
  | [(_, a), (_, b)] =>
    cases en <;> cases k <;> simp only [macroOf, Option.some.injEq] at hf <;>
      subst hf <;> first
      | exact (List.append_nil _).symm
      | exact List.append_assoc ..
  | _ :: _ :: _ :: _ => cases k <;> simp [macroOf] at hf

/-- How often a complete event evaluates: `start` twice, `end` and the arguments once. -/
theorem C67_complete (category name : Str) (start stop : TimeExpr) (n1 : Str) (a1 : ArgE)
    (n2 : Str) (a2 : ArgE) (hs : start.Stable) (he : stop.Stable) (w w' : MW)
    (h : TRACE_COMPLETE2 true category name start stop n1 a1 n2 a2 w = .ok w') :
    w'.evals = w.evals ++ start.ids ++ stop.ids ++ start.ids ++ [a1.id, a2.id] := by
  simp only [TRACE_COMPLETE2] at h
  obtain ⟨w1, rfl, rfl⟩ := complete2_spec hs (stable_paste hs he) h
  simp [Src.eval, MW.call, TimeExpr.ids, pasteMinus]

/-- C67 fails for the `start` of a complete event: it is evaluated twice. With
`TRACE_COMPLETE0(cat, name, now(), e)` and a clock at 100 and then 150, the event starts at 100
and lasts until `e`, less 150. -/
theorem C67_refuted_start (category name : Str) :
    ∃ (start : TTerm) (w' : MW) (tpi : TracepointInfo),
      TRACE_COMPLETE0 true category name ⟨start, []⟩ ⟨exPoint 2 400, []⟩ ⟨[], []⟩ = .ok w' ∧
      w'.evals.count start.id = 2 ∧ w'.calls = [.timed tpi 100 250 .none .none] :=
  ⟨⟨1, true, fun k => 100 + 50 * k⟩, _, _, rfl, rfl, rfl⟩

/-- C67 fails for the id of an asynchronous complete event: it is evaluated twice. -/
theorem C67_refuted_id (category name : Str) :
    ∃ (id : ArgE) (w' : MW),
      TRACE_ASYNC_COMPLETE0 true category name id ⟨exPoint 1 100, []⟩ ⟨exPoint 2 200, []⟩
        ⟨[], []⟩ = .ok w' ∧ w'.evals.count id.id = 2 :=
  ⟨exNextId, _, rfl, rfl⟩

/-- C67 fails for the scoped macros: they evaluate their arguments also when the category is
disabled. -/
theorem C67_refuted_scoped (category name n1 : Str) (a1 : ArgE) :
    (TRACE_EVENT1 false category name n1 a1 ⟨[], []⟩).2.evals = [a1.id] := rfl

/-- Scoped events evaluate their arguments once, at entry. -/
theorem C67_scoped (en : Bool) (category name : Str) (func : Bool) (args : List (Str × ArgE))
    (f : MW → (TracepointInfo × Bool × CVal × CVal) × MW)
    (hf : scopedOf en category name func args = some f) (w : MW) :
    (f w).2 = ⟨w.evals ++ args.map (·.2.id), w.calls⟩ := by
  match args with
  | [] =>
    cases func <;> simp only [scopedOf, Option.some.injEq] at hf <;> subst hf <;>
      exact congrArg (MW.mk · w.calls) (List.append_nil _).symm
  | [(_, a)] =>
    cases func <;> simp only [scopedOf, Option.some.injEq] at hf <;> subst hf <;> rfl
  | [(_, a), (_, b)] =>
    cases func <;> simp only [scopedOf, Option.some.injEq] at hf <;> subst hf <;>
      exact congrArg (MW.mk · w.calls) (List.append_assoc ..)
  | _ :: _ :: _ :: _ => simp [scopedOf] at hf

/-! ### C68 The compiled-out interface -/

/-- The macros that keep their name and number of parameters when tracing is compiled out. -/
def Same (m : String × Nat) : Prop := m ∈ enabledMacros ∧ m ∈ disabledMacros

/-- C68: compiled out, every macro keeps its name and number of parameters, except the five
given. Missing: those five (`C68_refuted`). -/
theorem C68_interface_partial (m : String × Nat) :
    m ∈ enabledMacros ↔ (Same m ∨ m ∈ [("TRACE_FUNCTION1", 3), ("TRACE_FUNCTION2", 5),
      ("TRACE_ASYNC_COMPLETE0", 5), ("TRACE_ASYNC_COMPLETE1", 7), ("TRACE_ASYNC_COMPLETE2", 9)]) := by
  have h1 : ∀ m ∈ enabledMacros, m ∈ disabledMacros ∨ m ∈ [("TRACE_FUNCTION1", 3),
      ("TRACE_FUNCTION2", 5), ("TRACE_ASYNC_COMPLETE0", 5), ("TRACE_ASYNC_COMPLETE1", 7),
      ("TRACE_ASYNC_COMPLETE2", 9)] := by decide
  have h2 : ∀ m ∈ [("TRACE_FUNCTION1", 3), ("TRACE_FUNCTION2", 5), ("TRACE_ASYNC_COMPLETE0", 5),
      ("TRACE_ASYNC_COMPLETE1", 7), ("TRACE_ASYNC_COMPLETE2", 9)], m ∈ enabledMacros := by decide
  constructor
  · intro h
    rcases h1 m h with h' | h'
    · exact .inl ⟨h, h'⟩
    · exact .inr h'
  · rintro (h | h)
    · exact h.1
    · exact h2 m h

/-- C68 fails: `TRACE_FUNCTION1(category, arg1_name, arg1)` has four parameters when compiled
out, and `TRACE_ASYNC_COMPLETE0` is not defined then. -/
theorem C68_refuted : ("TRACE_FUNCTION1", 3) ∈ enabledMacros ∧
    (∀ n, ("TRACE_FUNCTION1", n) ∈ disabledMacros → n = 4) ∧
    ("TRACE_ASYNC_COMPLETE0", 5) ∈ enabledMacros ∧
    ∀ n, ("TRACE_ASYNC_COMPLETE0", n) ∉ disabledMacros := by
  refine ⟨by decide, fun n h => ?_, by decide, fun n h => ?_⟩
  · simpa [disabledMacros] using h
  · simp [disabledMacros] at h

/-- C68: the compiled-out lock guards do the same to the mutex and to the program as the guards
of a disabled category, whatever the body does and whether or not locking succeeds. -/
theorem C68_lockguard (tpiWait tpiHeld : TracepointInfo) (m : BitVec 64) (limit : Int)
    (lockOk : Bool) (body : World → Res World) (w : World) :
    plainGuarded m lockOk body w = guarded tpiWait tpiHeld false m limit lockOk body w := by
  cases lockOk
  · rfl
  · simp only [plainGuarded, guarded, MutexGuard.ctor, if_true, Bool.false_eq_true, if_false]
    rfl

/-- C68: and the same to the mutex as the guards of an enabled category. -/
theorem C68_lock_ops (m : BitVec 64) (body : World → Res World) (w w2 : World)
    (bodyActs : List Act) (hb : body (w.act (.lock m)) = .ok w2)
    (hacts : w2.acts = w.acts ++ [.lock m] ++ bodyActs) :
    ∃ w3, plainGuarded m true body w = .ok w3 ∧
      w3.acts = w.acts ++ [.lock m] ++ bodyActs ++ [.unlock m] := by
  refine ⟨w2.act (.unlock m), ?_, ?_⟩
  · simp only [plainGuarded, if_true, hb]; rfl
  · simp [World.act, hacts]

example : actsOf (plainGuarded 8#64 true (fun w => .ok (w.act (.other 1))) ⟨fun _ => 0, 0, []⟩) =
    some [.lock 8#64, .other 1, .unlock 8#64] := rfl

end Macro
end Phosphor
