import Verif.Model.Weak

/-
Model of the shared memory accesses of the trace log (src/trace_log.cc, with the buffers of
src/trace_buffer.cc) over a release/acquire memory. Any number of threads log, register, start,
stop, take the buffer, read and destroy it. One step makes at most one access to an atomic and the
plain accesses before it.

What does not matter for the order of memory accesses is left open, so that this model has more
executions than the code: whether a chunk is full, whether a thread that found the buffer full
stops tracing (the `generation` counter), the order of the return queue, whether `try_lock` of a
chunk lock fails. The mutex, the chunk locks and the return queue are objects that pass on what was
known at their release: for chunk locks and queue that is C63 (and C110) and C62, for `std::mutex` it is the
standard. The category registry is C64.
-/
namespace Phosphor.TLog.W
open Phosphor.Weak

/-- A chunk: a buffer and an index in it. Code: trace_buffer.h:116-121. -/
abbrev Chunk := Nat × Nat

/-- Atomic locations: `enabled` and any others. Code: trace_log.h:330. -/
inductive Loc
  | en
  | ext (n : Nat)
  deriving DecidableEq

/-- Plain locations: the pointer `buffer`, the pointer `thread_chunk.chunk` of thread `t`, the data
only used under the mutex (`trace_config`, `registered_chunk_tenants`, `thread_names`,
`deregistered_threads`), the members of buffer `h`, the contents of its chunk `i`. Code:
trace_log.h:321, trace_log.h:353, trace_log.h:365-380, chunk_lock.h:184-192,
trace_buffer.cc:176-181, trace_buffer.cc:286-292, trace_buffer.h:116-121. -/
inductive Plain
  | buf
  | tc (t : Nat)
  | cfg
  | obj (h : Nat)
  | cell (h i : Nat)
  deriving DecidableEq

/-- Where a thread is. `d` counts the restarts whose stopped callback is running. Code:
trace_log.cc:63-317. -/
inductive Pc
  | idle
  /-- has read that tracing is on (lines 127, 141), about to try the chunk lock (line 257) -/
  | tryLock
  /-- holds the chunk lock; about to test `initialised` and its chunk (lines 281-285) -/
  | locked
  /-- about to load `enabled` (line 288) -/
  | check
  /-- about to test `ct.chunk` (line 304) -/
  | replace
  /-- about to return chunk `c` (line 305) -/
  | giveBack (c : Chunk)
  /-- about to clear `ct.chunk` (line 306) -/
  | clear
  /-- about to load `enabled` (line 308) -/
  | again
  /-- about to read `buffer` (line 308) -/
  | readBuf
  /-- about to call `getChunk` of buffer `h` (line 308) -/
  | getChunk (h : Nat)
  /-- about to reset chunk `c` (trace_buffer.cc:116, trace_buffer.cc:219) -/
  | reset (c : Chunk)
  /-- about to set `ct.chunk` (line 308) -/
  | setChunk (c : Chunk)
  /-- about to store an event (lines 132, 146-147) -/
  | write
  /-- about to release the chunk lock (end of `logEvent`, line 294) -/
  | unlock
  /-- holds the mutex, about to call any function (or to return from the callback) -/
  | crit (d : Nat)
  /-- about to exchange `enabled` (line 86); `k`: called by `start` -/
  | exchange (k : Bool) (d : Nat)
  /-- in the loop of `evictThreads` (line 312) -/
  | evict (k : Bool) (d : Nat)
  /-- holds the chunk lock of `u` as master, about to clear its chunk (line 314) -/
  | evClear (k : Bool) (d u : Nat)
  /-- about to release it (line 315) -/
  | evUnlock (k : Bool) (d u : Nat)
  /-- in `start`, about to load `enabled` (line 113) -/
  | start (d : Nat)
  /-- in `start`, about to make a new buffer (line 117) -/
  | newBuf (d : Nat)
  /-- in `start`, about to set `enabled` (lines 120-121) -/
  | turnOn (d : Nat)
  /-- in `getBuffer` or `getTraceContext`, about to load `enabled` (lines 162, 176) -/
  | getBuf (d : Nat)
  /-- about to take the buffer (lines 167, 181) -/
  | take (d : Nat)
  /-- in `deregisterThread`, about to read the own chunk (line 220) -/
  | dTest (d : Nat)
  /-- about to return it if there is a buffer (lines 221-222) -/
  | dReturn (c : Chunk) (d : Nat)
  /-- about to clear it (line 224) -/
  | dClear (d : Nat)
  /-- about to leave the sets (lines 226-233) -/
  | dErase (d : Nat)

/-- A buffer: mode, number of chunks, chunks issued, returned chunks with the knowledge passed on.
Code: trace_buffer.cc:175-182, trace_buffer.cc:285-292. -/
structure Buf where
  ring : Bool
  size : Nat
  next : Nat
  bag : List (Chunk × View Loc)

/-- Memory and program state. `lk t`, `lview t`: holder of the chunk lock of `t` and what its last
release passed on; `pend`: tenants still to be evicted; `own h`: the thread that has taken buffer
`h`; `cnt`: number of buffers made. Code: trace_log.h:321-380, chunk_lock.h:126-170. -/
structure St where
  mem : Mem Loc Nat Plain
  mutex : Option Nat
  mview : View Loc
  lk : Nat → Option Nat
  lview : Nat → View Loc
  reg : Nat → Bool
  tc : Nat → Option Chunk
  buf : Option Nat
  bufs : Nat → Buf
  cnt : Nat
  freed : Nat → Bool
  own : Nat → Option Nat
  pend : Nat → Bool
  pc : Nat → Pc

/-- A new log. Code: trace_log.cc:37-41, trace_log.h:321-380. -/
def St.init : St where
  mem := Mem.init fun _ => 0
  mutex := none
  mview := View.bot
  lk _ := none
  lview _ := View.bot
  reg _ := false
  tc _ := none
  buf := none
  bufs _ := ⟨false, 0, 0, []⟩
  cnt := 0
  freed _ := false
  own _ := none
  pend _ := false
  pc _ := .idle

/-- Thread `t` goes to `p`, memory becomes `μ`. Code: trace_log.cc:63-317. -/
def St.goto (w : St) (t : Nat) (p : Pc) (μ : Mem Loc Nat Plain) : St :=
  { w with pc := setf w.pc t p, mem := μ }

/-- The locations of buffer `h`. Code: trace_buffer.cc:175-182, trace_buffer.cc:285-292. -/
def part (h : Nat) : Plain → Bool
  | .obj k => k == h
  | .cell k _ => k == h
  | _ => false

/-- Writes of all locations in `P` (construction, destruction). Code: trace_buffer.cc:104-108,
trace_buffer.cc:195-203. -/
def writeAll (μ : Mem Loc Nat Plain) (t : Nat) (P : Plain → Bool) : Mem Loc Nat Plain :=
  { μ with
    view := setf μ.view t ((μ.view t).tick t)
    wr := fun k => if P k then setf (μ.wr k) t ((μ.view t).clk t + 1) else μ.wr k }

/-- Thread `t` learns `v`. Code: chunk_lock.cc:29-80. -/
def learn (μ : Mem Loc Nat Plain) (t : Nat) (v : View Loc) : Mem Loc Nat Plain :=
  { μ with view := setf μ.view t ((μ.view t).join v) }

/-- Thread `t` returns chunk `c` to buffer `h`. Code: trace_buffer.cc:121-124,
trace_buffer.cc:224-228. -/
def St.giveBack (w : St) (t h : Nat) (c : Chunk) : Nat → Buf :=
  setf w.bufs h { w.bufs h with
    bag := if (w.bufs h).ring then (c, w.mem.view t) :: (w.bufs h).bag else (w.bufs h).bag }

/-- A thread that may use a buffer it has taken: it is in no call, or in the stopped callback.
Code: trace_log.cc:92. -/
def Pc.free : Pc → Prop
  | .idle => True
  | .crit _ => True
  | _ => False

/-- One step. With `pol`, a stopped callback that runs because `start` restarts tracing does not
itself call `start`. Code: trace_log.cc:63-317, trace_buffer.cc:104-228. -/
inductive Step (pol : Bool) : St → St → Prop
  /-- other plain accesses, other atomics -/
  | other {w t} : Step pol w { w with mem := w.mem.other t }
  | extLoad {w t n ts m} : w.mem.readable t (.ext n) ts m →
      Step pol w { w with mem := w.mem.loadAcq t (.ext n) ts m }
  | extStore {w t n ts v} : w.mem.free t (.ext n) ts →
      Step pol w { w with mem := w.mem.storeRel t (.ext n) ts v }
  /-- `logEvent`: load `enabled` (lines 127, 141) -/
  | logOff {w t ts m} : w.pc t = .idle → w.mem.readable t .en ts m → m.val = 0 →
      Step pol w (w.goto t .idle (w.mem.loadAcq t .en ts m))
  | logOn {w t ts m} : w.pc t = .idle → w.mem.readable t .en ts m → m.val ≠ 0 →
      Step pol w (w.goto t .tryLock (w.mem.loadAcq t .en ts m))
  /-- `try_lock` of the own chunk lock (line 257) -/
  | tryFail {w t} : w.pc t = .tryLock → Step pol w (w.goto t .idle w.mem)
  | tryOk {w t} : w.pc t = .tryLock → w.lk t = none →
      Step pol w { w.goto t .locked (learn w.mem t (w.lview t)) with lk := setf w.lk t (some t) }
  /-- not registered (lines 281-282) -/
  | notReg {w t} : w.pc t = .locked → w.reg t = false → Step pol w (w.goto t .unlock w.mem)
  /-- no chunk, or a full one, or one with room (line 285) -/
  | noChunk {w t} : w.pc t = .locked → w.reg t = true → w.tc t = none →
      Step pol w (w.goto t .check (w.mem.read t (.tc t)))
  | fullChunk {w t c} : w.pc t = .locked → w.reg t = true → w.tc t = some c →
      Step pol w (w.goto t .check ((w.mem.read t (.tc t)).read t (.cell c.1 c.2)))
  | room {w t c} : w.pc t = .locked → w.reg t = true → w.tc t = some c →
      Step pol w (w.goto t .write ((w.mem.read t (.tc t)).read t (.cell c.1 c.2)))
  /-- line 288 -/
  | checkOff {w t ts m} : w.pc t = .check → w.mem.readable t .en ts m → m.val = 0 →
      Step pol w (w.goto t .unlock (w.mem.loadAcq t .en ts m))
  | checkOn {w t ts m} : w.pc t = .check → w.mem.readable t .en ts m → m.val ≠ 0 →
      Step pol w (w.goto t .replace (w.mem.loadAcq t .en ts m))
  /-- `replaceChunk` (lines 304-308) -/
  | replaceNone {w t} : w.pc t = .replace → w.tc t = none →
      Step pol w (w.goto t .again (w.mem.read t (.tc t)))
  | replaceSome {w t c} : w.pc t = .replace → w.tc t = some c →
      Step pol w (w.goto t (.giveBack c) (w.mem.read t (.tc t)))
  | giveBack {w t c h} : w.pc t = .giveBack c → w.buf = some h →
      Step pol w { w.goto t .clear ((w.mem.read t .buf).read t (.obj h)) with
        bufs := w.giveBack t h c }
  | clear {w t} : w.pc t = .clear →
      Step pol w { w.goto t .again (w.mem.write t (.tc t)) with tc := setf w.tc t none }
  | againOff {w t ts m} : w.pc t = .again → w.mem.readable t .en ts m → m.val = 0 →
      Step pol w (w.goto t .unlock (w.mem.loadAcq t .en ts m))
  | againOn {w t ts m} : w.pc t = .again → w.mem.readable t .en ts m → m.val ≠ 0 →
      Step pol w (w.goto t .readBuf (w.mem.loadAcq t .en ts m))
  | bufNone {w t} : w.pc t = .readBuf → w.buf = none →
      Step pol w (w.goto t .unlock (w.mem.read t .buf))
  | bufSome {w t h} : w.pc t = .readBuf → w.buf = some h →
      Step pol w (w.goto t (.getChunk h) (w.mem.read t .buf))
  /-- `getChunk`: the next unused chunk, a returned chunk, or none (trace_buffer.cc:110-119,
  trace_buffer.cc:205-222) -/
  | fresh {w t h} : w.pc t = .getChunk h → (w.bufs h).next < (w.bufs h).size →
      Step pol w { w.goto t (.reset (h, (w.bufs h).next)) (w.mem.read t (.obj h)) with
        bufs := setf w.bufs h { w.bufs h with next := (w.bufs h).next + 1 } }
  | reuse {w t h b1 b2 c v} : w.pc t = .getChunk h → (w.bufs h).ring = true →
      (w.bufs h).bag = b1 ++ (c, v) :: b2 →
      Step pol w { w.goto t (.reset c) (learn (w.mem.read t (.obj h)) t v) with
        bufs := setf w.bufs h { w.bufs h with bag := b1 ++ b2 } }
  | exhausted {w t h} : w.pc t = .getChunk h → (w.bufs h).ring = false →
      Step pol w (w.goto t .unlock (w.mem.read t (.obj h)))
  | reset {w t c} : w.pc t = .reset c →
      Step pol w (w.goto t (.setChunk c) (w.mem.write t (.cell c.1 c.2)))
  | setChunk {w t c} : w.pc t = .setChunk c →
      Step pol w { w.goto t .write (w.mem.write t (.tc t)) with tc := setf w.tc t (some c) }
  /-- store an event (lines 132, 146-147) -/
  | write {w t c} : w.pc t = .write → w.tc t = some c →
      Step pol w (w.goto t .unlock ((w.mem.read t (.tc t)).write t (.cell c.1 c.2)))
  /-- release the chunk lock -/
  | unlock {w t} : w.pc t = .unlock →
      Step pol w { w.goto t .idle w.mem with
        lk := setf w.lk t none
        lview := setf w.lview t (w.mem.view t) }
  /-- lock and unlock the mutex (lines 51, 64, 72-73, 98, 157, 171, 189, 212, 237, 242) -/
  | lockM {w t} : w.pc t = .idle → w.mutex = none →
      Step pol w { w.goto t (.crit 0) (learn w.mem t w.mview) with mutex := some t }
  | unlockM {w t} : w.pc t = .crit 0 →
      Step pol w { w.goto t .idle w.mem with
        mutex := none
        mview := w.mem.view t }
  /-- use of the data under the mutex, for instance `getTraceConfig`, or a `start` that throws -/
  | cfg {w t d} : w.pc t = .crit d → Step pol w (w.goto t (.crit d) (w.mem.write t .cfg))
  /-- `getStats` (lines 244-253) -/
  | statsNone {w t d} : w.pc t = .crit d → w.buf = none →
      Step pol w (w.goto t (.crit d) ((w.mem.read t .buf).read t .cfg))
  | statsSome {w t d h} : w.pc t = .crit d → w.buf = some h →
      Step pol w (w.goto t (.crit d) (((w.mem.read t .buf).read t (.obj h)).read t .cfg))
  /-- `stop` (lines 85-95) -/
  | stop {w t d} : w.pc t = .crit d → Step pol w (w.goto t (.exchange false d) w.mem)
  | exchangeOff {w t k d ts m} : w.pc t = .exchange k d → w.mem.readable t .en ts m →
      w.mem.hist .en (ts + 1) = none → m.val = 0 →
      Step pol w (w.goto t (if k then .newBuf d else .crit d) (w.mem.rmwAcqRel t .en ts m 0))
  | exchangeOn {w t k d ts m} : w.pc t = .exchange k d → w.mem.readable t .en ts m →
      w.mem.hist .en (ts + 1) = none → m.val ≠ 0 →
      Step pol w { w.goto t (.evict k d) ((w.mem.rmwAcqRel t .en ts m 0).read t .cfg) with
        pend := w.reg }
  /-- `evictThreads` (lines 311-317) -/
  | evLock {w t k d u} : w.pc t = .evict k d → w.pend u = true → w.lk u = none →
      Step pol w { w.goto t (.evClear k d u) (learn w.mem t (w.lview u)) with
        lk := setf w.lk u (some t) }
  | evClear {w t k d u} : w.pc t = .evClear k d u →
      Step pol w { w.goto t (.evUnlock k d u) (w.mem.write t (.tc u)) with tc := setf w.tc u none }
  | evUnlock {w t k d u} : w.pc t = .evUnlock k d u →
      Step pol w { w.goto t (.evict k d) w.mem with
        lk := setf w.lk u none
        lview := setf w.lview u (w.mem.view t)
        pend := setf w.pend u false }
  /-- the stopped callback (lines 89-93) -/
  | evDone {w t k d} : w.pc t = .evict k d → (∀ u, w.pend u = false) →
      Step pol w (w.goto t (.crit (if k then d + 1 else d)) (w.mem.read t .cfg))
  /-- it returns to `start` -/
  | resume {w t d} : w.pc t = .crit (d + 1) → Step pol w (w.goto t (.newBuf d) w.mem)
  /-- `start` (lines 104-121) -/
  | start {w t d} : w.pc t = .crit d → (pol = true → d = 0) →
      Step pol w (w.goto t (.start d) (w.mem.write t .cfg))
  | startOff {w t d ts m} : w.pc t = .start d → w.mem.readable t .en ts m → m.val = 0 →
      Step pol w (w.goto t (.newBuf d) (w.mem.loadAcq t .en ts m))
  | startOn {w t d ts m} : w.pc t = .start d → w.mem.readable t .en ts m → m.val ≠ 0 →
      Step pol w (w.goto t (.exchange true d) (w.mem.loadAcq t .en ts m))
  | newBuf {w t d} (ring : Bool) (size : Nat) : w.pc t = .newBuf d →
      Step pol w { w.goto t (.turnOn d) (writeAll w.mem t fun k =>
            k == .buf || part w.cnt k || w.buf.any fun h => part h k) with
        buf := some w.cnt
        bufs := setf w.bufs w.cnt ⟨ring, size, 0, []⟩
        cnt := w.cnt + 1
        freed := fun h => w.freed h || w.buf == some h }
  | turnOn {w t d ts} : w.pc t = .turnOn d → w.mem.free t .en ts →
      Step pol w (w.goto t (.crit d) ((w.mem.write t .cfg).storeRel t .en ts 1))
  /-- `getBuffer`, `getTraceContext` (lines 161-182) -/
  | getBuf {w t d} : w.pc t = .crit d → Step pol w (w.goto t (.getBuf d) w.mem)
  | getBufOn {w t d ts m} : w.pc t = .getBuf d → w.mem.readable t .en ts m → m.val ≠ 0 →
      Step pol w (w.goto t (.crit d) (w.mem.loadAcq t .en ts m))
  | getBufOff {w t d ts m} : w.pc t = .getBuf d → w.mem.readable t .en ts m → m.val = 0 →
      Step pol w (w.goto t (.take d) (w.mem.loadAcq t .en ts m))
  | take {w t d} : w.pc t = .take d →
      Step pol w { w.goto t (.crit d) ((w.mem.read t .cfg).write t .buf) with
        buf := none
        own := fun h => if w.buf = some h then some t else w.own h }
  /-- `registerThread` (lines 188-209) -/
  | register {w t d} : w.pc t = .crit d → w.reg t = false →
      Step pol w { w.goto t (.crit d) (w.mem.write t .cfg) with reg := setf w.reg t true }
  /-- `deregisterThread` (lines 211-234) -/
  | deregister {w t d} : w.pc t = .crit d → w.reg t = true →
      Step pol w (w.goto t (.dTest d) w.mem)
  | dNone {w t d} : w.pc t = .dTest d → w.tc t = none →
      Step pol w (w.goto t (.dErase d) (w.mem.read t (.tc t)))
  | dSome {w t d c} : w.pc t = .dTest d → w.tc t = some c →
      Step pol w (w.goto t (.dReturn c d) (w.mem.read t (.tc t)))
  | dReturnNone {w t d c} : w.pc t = .dReturn c d → w.buf = none →
      Step pol w (w.goto t (.dClear d) (w.mem.read t .buf))
  | dReturn {w t d c h} : w.pc t = .dReturn c d → w.buf = some h →
      Step pol w { w.goto t (.dClear d) ((w.mem.read t .buf).read t (.obj h)) with
        bufs := w.giveBack t h c }
  | dClear {w t d} : w.pc t = .dClear d →
      Step pol w { w.goto t (.dErase d) (w.mem.write t (.tc t)) with tc := setf w.tc t none }
  | dErase {w t d} : w.pc t = .dErase d →
      Step pol w { w.goto t (.crit d) (w.mem.write t .cfg) with reg := setf w.reg t false }
  /-- the owner of a taken buffer reads it, gives it to another thread, destroys it -/
  | ownRead {w t h i} : (w.pc t).free → w.own h = some t →
      Step pol w { w with mem := (w.mem.read t (.obj h)).read t (.cell h i) }
  | ownGive {w t u h} : (w.pc t).free → w.own h = some t →
      Step pol w { w with mem := learn w.mem u (w.mem.view t), own := setf w.own h (some u) }
  | ownFree {w t h} : (w.pc t).free → w.own h = some t →
      Step pol w { w with
        mem := writeAll w.mem t (part h)
        own := setf w.own h none
        freed := setf w.freed h true }

/-- States reachable by any execution. Code: trace_log.cc:37-317. -/
inductive Reachable (pol : Bool) : St → Prop
  | init : Reachable pol St.init
  | step {w w'} : Reachable pol w → Step pol w w' → Reachable pol w'

end Phosphor.TLog.W
