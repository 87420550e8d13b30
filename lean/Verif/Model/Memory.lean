import Verif.Model.TraceBuffer
/-
The memory of a trace log: how many bytes its object, its buffer and its bookkeeping take, at every
moment of a sequence of calls. Calls that change what the log owns run under its mutex, so their
order is all that matters.

Sizes are those of 64-bit targets with libstdc++. Simplifications: destroying a buffer is one
moment; overhead of the heap itself, text given by the user (category lists and groups, thread names)
and buffers made by user factories are not counted; an entry of a map or set takes the same number
of bytes wherever it is.
-/
namespace Phosphor.Mem

/-! ### Layout of classes -/

/-- Size and alignment of a type, in bytes. Code: trace_buffer.h:44-49, trace_log.cc:106. -/
structure Ty where
  size : Nat
  align : Nat
  deriving DecidableEq, Repr

/-- The next multiple of `a`. Code: layout of trace_buffer.h:115-120. -/
def alignUp (n a : Nat) : Nat := (n + a - 1) / a * a

/-- Offset after the members of a class. Code: layout of trace_buffer.h:115-120. -/
def offsetAfter (off : Nat) : List Ty → Nat
  | [] => off
  | m :: ms => offsetAfter (alignUp off m.align + m.size) ms

/-- A class with the given members, in order. Code: layout of trace_buffer.h:115-120. -/
def class_ (ms : List Ty) : Ty :=
  let a := ms.foldr (fun m a => max m.align a) 1
  ⟨alignUp (offsetAfter 0 ms) a, a⟩

/-- An array. Code: trace_buffer.h:50. -/
def Ty.array (t : Ty) (n : Nat) : Ty := ⟨n * t.size, t.align⟩

/-- `char`, `bool` and their atomics. Code: trace_log.h:330, trace_config.h:293. -/
def tChar : Ty := ⟨1, 1⟩
/-- `unsigned short`. Code: trace_buffer.h:117. -/
def tShort : Ty := ⟨2, 2⟩
/-- `uint32_t`. Code: trace_buffer.h:119. -/
def tInt : Ty := ⟨4, 4⟩
/-- `size_t`, `uint64_t`, pointers, `unique_ptr` and their atomics. Code: trace_event.h:148-156. -/
def tWord : Ty := ⟨8, 8⟩
/-- `std::mutex` (`pthread_mutex_t`). Code: trace_log.h:341. -/
def tMutex : Ty := ⟨40, 8⟩
/-- `std::string`. Code: category_registry.h:118. -/
def tString : Ty := ⟨32, 8⟩
/-- `std::vector`. Code: category_registry.h:126-127. -/
def tVector : Ty := ⟨24, 8⟩
/-- `std::function`. Code: trace_buffer.h:381-382. -/
def tFunction : Ty := ⟨32, 8⟩
/-- `std::shared_ptr`. Code: trace_config.h:292. -/
def tShared : Ty := ⟨16, 8⟩
/-- `std::unordered_map`, `std::unordered_set`. Code: trace_log.h:365, 375. -/
def tHash : Ty := ⟨56, 8⟩
/-- `std::set`. Code: trace_log.h:380. -/
def tTree : Ty := ⟨48, 8⟩

/-- `TraceEvent` (trace_event.h:148-156). -/
def tEvent : Ty := class_ [tWord, tWord.array 2, tWord, tWord]

/-- `TraceChunk` (trace_buffer.h:115-120). -/
def tChunk : Ty := class_ [tShort, tInt, tEvent.array ((4096 * 1 - 64) / tEvent.size)]

/-- `gsl_p::dyn_array` (dyn_array.h:358-359). -/
def tDyn : Ty := class_ [tWord, tWord]

/-- `FixedTraceBuffer` (trace_buffer.cc:176-181), with the pointer to its virtual functions. -/
def tFixed : Ty := class_ [tWord, tDyn, tWord, tWord, tWord]

/-- `mpmc_bounded_queue::cell_t` (mpmc_bounded_queue.h:143-146). -/
def tCell : Ty := class_ [tWord, tWord]

/-- `mpmc_bounded_queue` (mpmc_bounded_queue.h:148-158). -/
def tQueue : Ty :=
  class_ [tChar.array 64, tDyn, tWord, tChar.array 64, tWord, tChar.array 64, tWord, tChar.array 64]

/-- `RingTraceBuffer` (trace_buffer.cc:287-292). -/
def tRing : Ty := class_ [tWord, tWord, tWord, tDyn, tQueue, tWord]

/-- `CategoryRegistry` (category_registry.h:116-127). -/
def tRegistry : Ty := class_ [tMutex, tString.array 250, tChar.array 250, tWord, tVector, tVector]

/-- `TraceConfig` (trace_config.h:285-296). -/
def tConfig : Ty := class_ [class_ [tChar, tFunction], tWord, tShared, tChar, tVector, tVector]

/-- `TraceLog` (trace_log.h:321-380). -/
def tLog : Ty :=
  class_ [tConfig, tChar, tMutex, tWord, tWord, tHash, tRegistry, tHash, tTree]

/-! ### The log -/

/-- The modes of the library's own buffers (trace_buffer.h:130-134). -/
inductive Mode
  | fixed
  | ring
  deriving DecidableEq, Repr

/-- What matters of a `TraceConfig`: mode, size in bytes, and whether its stopped callback takes the
buffer out of the log. Code: trace_config.h:268-296. -/
structure Conf where
  mode : Mode
  size : BitVec 64
  takes : Bool := false
  deriving DecidableEq, Repr

/-- What the log owns. `buffer`: the blocks of the current buffer; `fresh`: the blocks of a buffer
under construction; `budget`: the size given to the `start` that began the current or last run;
`names`, `gone`, `tenants`: the thread ids in `thread_names`, `deregistered_threads` and (for their
tenants) `registered_chunk_tenants`. Code: trace_log.h:321-380. -/
structure St where
  enabled : Bool
  conf : Conf
  budget : Nat
  buffer : Option (List Nat)
  fresh : List Nat
  names : List Nat
  gone : List Nat
  tenants : List Nat
  deriving DecidableEq, Repr

/-- A log constructed without start-up trace (trace_log.cc:38-41). -/
def St.new : St where
  enabled := false
  conf := ⟨.fixed, 0, false⟩
  budget := 0
  buffer := none
  fresh := []
  names := []
  gone := []
  tenants := []

/-- Bytes of the log's own object, its buffer and a buffer under construction. Code:
trace_log.h:321-380. -/
def St.own (s : St) : Nat := tLog.size + (s.buffer.getD []).sum + s.fresh.sum

/-- Number of entries of the maps and sets. Code: trace_log.h:365-380. -/
def St.entries (s : St) : Nat := s.names.length + s.gone.length + s.tenants.length

/-- Bytes in use, when an entry of a map or set takes `k` bytes. Code: trace_log.h:321-380. -/
def St.bytes (k : Nat) (s : St) : Nat := s.own + k * s.entries

/-- The requests for memory of a buffer of `n` chunks, in order: the object, the chunks, and for a
ring the cells of the queue. `none`: `__allocate` raised `out_of_range`. Code: trace_buffer.cc:104-106,
184-187, 195-201, 313-316, dyn_array.h:362-369, memory.h:23-26. -/
def requests (mode : Mode) (n : BitVec 64) : List (Option Nat) :=
  let block (t : Ty) (count : BitVec 64) : Option Nat :=
    match dynAllocate (BitVec.ofNat 64 t.size) count with
    | .ok bytes => some bytes.toNat
    | _ => none
  match mode with
  | .fixed => [some tFixed.size, block tChunk n]
  | .ring => [some tRing.size, block tChunk n, block tCell (upperPowerOfTwo n)]

/-- The factory at work: the moments at which the blocks obtained so far are in use, ending with
all of them, or, after a failure, with none. `memory` tells which requests `operator new` meets.
Code: trace_log.cc:117, trace_buffer.cc:184-187, 313-316. -/
def St.build (memory : Nat → Bool) (s : St) : List (Option Nat) → List St × Bool
  | [] => ([], true)
  | none :: _ => ([{ s with fresh := [] }], false)
  | some b :: rest =>
    if memory b then
      let s := { s with fresh := s.fresh ++ [b] }
      let (ms, ok) := s.build memory rest
      (s :: ms, ok)
    else ([{ s with fresh := [] }], false)

/-- `stop(lh)` (trace_log.cc:85-95): disable, then let the stopped callback have the buffer. -/
def St.stop (s : St) : List St :=
  if s.enabled then
    let off := { s with enabled := false }
    [off, if off.conf.takes then { off with buffer := none } else off]
  else [s]

/-- The last moment of a list that follows `s`. Code: trace_log.cc:85-122. -/
def lastOf (s : St) (ms : List St) : St := ms.getLast?.getD s

/-- `start(lh, conf)` (trace_log.cc:102-122). The new buffer is complete before the assignment
destroys the old one. -/
def St.start (memory : Nat → Bool) (s : St) (conf : Conf) : List St :=
  let s0 := { s with conf }
  let n := conf.size / BitVec.ofNat 64 tChunk.size
  if n = 0 then [s0]
  else
    let stopping := if s0.enabled then s0.stop else []
    let s1 := lastOf s0 stopping
    let (building, ok) := s1.build memory (requests conf.mode n)
    let s2 := lastOf s1 building
    if ok then
      let s3 := { s2 with buffer := some s2.fresh, fresh := [] }
      let s4 := { s3 with names := s3.names.filter (· ∉ s3.gone) }
      let s5 := { s4 with enabled := true, budget := conf.size.toNat }
      s0 :: stopping ++ building ++ [s3, s4, s5]
    else s0 :: stopping ++ building

/-- `getBuffer(lh)`, `getTraceContext(lh)`: raise, or move the buffer out (trace_log.cc:161-182). -/
def St.getBuffer (s : St) : St := if s.enabled then s else { s with buffer := none }

/-- `registerThread` (trace_log.cc:188-209) by the thread with id `t`. -/
def St.register (s : St) (t : Nat) (named : Bool) : St :=
  if t ∈ s.tenants then s
  else
    let s := { s with tenants := t :: s.tenants }
    if named then
      { s with
        names := if t ∈ s.names then s.names else t :: s.names
        gone := s.gone.filter (· ≠ t) }
    else s

/-- `deregisterThread` (trace_log.cc:211-234) by the thread with id `t`. -/
def St.deregister (s : St) (t : Nat) : St :=
  if t ∈ s.tenants then
    let s := { s with tenants := s.tenants.filter (· ≠ t) }
    if s.enabled then { s with gone := if t ∈ s.gone then s.gone else t :: s.gone }
    else { s with names := s.names.filter (· ≠ t) }
  else s

/-- A call. Code: trace_log.h:60-262. -/
inductive Op
  | start (memory : Nat → Bool) (conf : Conf)
  | stop
  | getBuffer
  | register (t : Nat) (named : Bool)
  | deregister (t : Nat)

/-- The moments of a call, its end included. Code: trace_log.cc:63-234. -/
def St.moments (s : St) : Op → List St
  | .start memory conf => s.start memory conf
  | .stop => s.stop
  | .getBuffer => [s.getBuffer]
  | .register t named => [s.register t named]
  | .deregister t => [s.deregister t]

/-- The log after a call. Code: trace_log.cc:63-234. -/
def St.after (s : St) (o : Op) : St := lastOf s (s.moments o)

/-- The log after a sequence of calls. Code: trace_log.cc:63-234. -/
def St.run (s : St) : List Op → St
  | [] => s
  | o :: os => (s.after o).run os

/-- Every moment of a sequence of calls. Code: trace_log.cc:63-234. -/
def St.history (s : St) : List Op → List St
  | [] => [s]
  | o :: os => s :: s.moments o ++ (s.after o).history os

end Phosphor.Mem
