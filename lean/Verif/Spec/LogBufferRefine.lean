import Verif.Proof.LogBufferInv
/-
What a state of the log over the code of its buffers (Model/LogBuffer) looks like to somebody for
whom `getChunk`, `returnChunk` and the body of `deregisterThread` are single steps (Model/TraceLog).
A `getChunk` of a ring has happened once the counter was incremented and, if that gave no chunk, once
the position of the queue was claimed; a `returnChunk` once a position of the queue was claimed.
-/
namespace Phosphor.LogBuf
open TLog Custom
variable {ε : Type}

/-- The chunk that a thread inside a function of the buffer has: issued and not yet returned by
`getChunk`, or passed to `returnChunk` and not yet in the queue. -/
def Buf.hand (b : Buf) (t : Nat) : Option Nat :=
  match b with
  | .fixed s => (s.pc t).hand
  | .ring s => s.hand t

/-- The thread has incremented the counter of a ring and waits for a chunk. -/
def Buf.waits (b : Buf) (t : Nat) : Bool :=
  match b with
  | .fixed _ => false
  | .ring s => s.waits t

/-- The chunk of thread `u`. -/
def seenChunk (x : XSt ε) (u : Nat) : Option (Nat × Nat) :=
  match x.c.inCall u with
  | none => (x.c.log.tenant u).chunk
  | some p =>
    match kind (x.c.log.pc u) with
    | .out => (x.c.log.tenant u).chunk
    | _ => ((x.buf p).hand u).map (fun i => (p, i))

/-- Thread `u` is in the loop of `getChunk` of a ring and has not got a chunk. -/
def seenWait (x : XSt ε) (u : Nat) : Bool :=
  match x.c.inCall u with
  | none => false
  | some p => (x.buf p).waits u

/-- Where a thread is, given whether it has a chunk, and whether it waits for one. -/
def seePc : Pc ε → Bool → Bool → Pc ε
  | .getWait e _, true, _ => .store e
  | .getWait e p, false, true => .getWait e p
  | .getWait e p, false, false => .getDo e p
  | .retDo e _, false, _ => .getCheck e
  | .deregBody, false, _ => .release
  | q, _, _ => q

def seenPc (x : XSt ε) (u : Nat) : Pc ε := seePc (x.c.log.pc u) (seenChunk x u).isSome (seenWait x u)

/-- What registration and the history of the log consist of: the registered threads, the names, the
names to be cleared, the history, and the tenants that are initialised. -/
abbrev Core : Type := List Nat × (Nat → Option Str) × List Nat × List Item × (Nat → Bool)

def core (l : St ε) : Core :=
  (l.registered, l.names, l.dereg, l.hist, fun u => (l.tenant u).initialised)

/-- What deregistering thread `t` does to it (trace_log.cc:214-233). -/
def unreg (tid : Nat → Nat) (enabled : Bool) (t : Nat) : Core → Core
  | (r, n, d, h, i) =>
    if i t then
      (r.filter (· ≠ t), if enabled then n else setf n (tid t) none,
        if enabled then tid t :: d.filter (· ≠ tid t) else d, .deregOk t :: h, setf i t false)
    else (r, n, d, .deregRefused t :: h, i)

/-- The thread in `deregisterThread` that has no chunk to give back (any more). -/
def leaving (x : XSt ε) : Option Nat :=
  match x.c.log.owner with
  | none => none
  | some t =>
    match x.c.log.pc t with
    | .deregBody => if seenChunk x t = none then some t else none
    | _ => none

def seenCore (tid : Nat → Nat) (x : XSt ε) : Core :=
  match leaving x with
  | some t => unreg tid x.c.log.enabled t (core x.c.log)
  | none => core x.c.log

/-- The buffer without its program counters. -/
def BufSeen (b : Buf) (B : Buffer ε) : Prop :=
  match b with
  | .fixed f => B.mode = .fixed ∧ B.counter = f.issued ∧ B.size = f.size
  | .ring r => B.mode = .ring ∧ B.counter = r.counter ∧ B.size = r.size ∧ B.queue = r.q.items

/-- The number of events in chunk `(p, i)` of thread `u`. -/
def events (x : XSt ε) (u p i : Nat) : Nat :=
  match x.c.log.pc u with
  | .getWait _ _ => 0
  | _ => x.c.count p i

/-- The events stored by thread `t` into buffer `b`, of all the events stored. -/
def eventsIn (o : List (Nat × Nat × ε)) (b t : Nat) : List ε :=
  (o.filter (fun y => decide (y.1 = b ∧ y.2.1 = t))).map (fun y => y.2.2)

/-- `s` is what `x` looks like; the events stored so far are `o` (buffer, thread, event). -/
structure Seen (tid : Nat → Nat) (o : List (Nat × Nat × ε)) (x : XSt ε) (s : St ε) : Prop where
  config : s.config = x.c.log.config
  enabled : s.enabled = x.c.log.enabled
  owner : s.owner = x.c.log.owner
  buffer : s.buffer = x.c.log.buffer
  generation : s.generation = x.c.log.generation
  status : s.status = x.c.log.status
  nextBuf : s.nextBuf = x.c.log.nextBuf
  contexts : s.contexts = x.c.log.contexts
  core : core s = seenCore tid x
  lock : ∀ u, (s.tenant u).lock = (x.c.log.tenant u).lock
  chunk : ∀ u, (s.tenant u).chunk = seenChunk x u
  pc : ∀ u, s.pc u = seenPc x u
  bufs : ∀ p, x.c.log.buffer = some p → BufSeen (x.buf p) (s.heap p)
  count : ∀ u p i evs, seenChunk x u = some (p, i) → (s.contents p)[i]? = some (u, evs) →
    evs.length = events x u p i
  stored : ∀ b t, s.stored b t = eventsIn o b t
  born : ∀ y ∈ o, y.1 < x.c.log.nextBuf

/-- The event that a step stores, if any. -/
def storing (x : XSt ε) (t : Nat) : XAct ε → List (Nat × Nat × ε)
  | .log .step | .log .spurious =>
    match x.c.log.pc t, (x.c.log.tenant t).chunk with
    | .store e, some (b, _) => [(b, t, e)]
    | _, _ => []
  | _ => []

/-- The action starts tracing, if at all, with a built-in buffer. -/
def BuiltIn : XAct ε → Prop
  | .log (.start cfg) => cfg.mode = .fixed ∨ cfg.mode = .ring
  | _ => True

/-- The choice is a step inside a function, not the beginning of one. -/
def inner : Choice ε → Bool
  | .step | .spurious => true
  | _ => false

/-- The functions of the log that an action begins. -/
def begun : XAct ε → List (Choice ε)
  | .log c => if inner c then [] else [c]
  | _ => []

/-- The functions of the log begun in an execution, and by whom. -/
def begins (l : List (Nat × Choice ε)) : List (Nat × Choice ε) := l.filter (fun y => !inner y.2)

/-- Likewise over the code of the buffers. -/
def beginsX (l : List (Nat × XAct ε)) : List (Nat × Choice ε) := l.flatMap (fun y => (begun y.2).map (fun c => (y.1, c)))

/-- The events stored in an execution, in order. -/
def stores (tid : Nat → Nat) (x : XSt ε) : List (Nat × XAct ε) → List (Nat × Nat × ε)
  | [] => []
  | (t, a) :: l =>
    match x.next tid t a with
    | .to x' => storing x t a ++ stores tid x' l
    | _ => []

end Phosphor.LogBuf
