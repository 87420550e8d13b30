# Formal model of couchbase/phosphor in Lean 4

## Layout

* `lean/Verif/Model/*.lean` – executable model of the code, function by function. Every
  definition cites the file and lines of `/repo` it models.
* `lean/Verif/Spec/*.lean` – small specifications written without the model (JSON grammar, JSON
  string decoder, glob language, decimal reading, rounding of doubles …).
* `lean/Verif/Proof/*.lean` – helper lemmas and invariants.
* `lean/Verif/Props/*.lean` – the theorems named after the properties, with a concrete case
  that meets the hypotheses beside them.
* `MANIFEST.json` maps properties to theorems. `seeded/LOG.jsonl` records the mutation tests.

A theorem whose name ends in `_partial` proves part of the property; its comment says what is
missing. A theorem whose name contains `refuted` proves, by a concrete execution or input, that
the code does not have the property.

## Trusted base

* Lean 4.33.0's kernel. Every theorem depends on at most `propext`, `Classical.choice` and
  `Quot.sound` (checked with `#print axioms` for all theorems of the manifest). No `sorry`, no
  own axioms, no `native_decide`, no `bv_decide`. Concrete cases are computed by the kernel
  (`decide`, `decide +kernel`).
* The reading of the C++ source into the model, cited line by line. The code is not run.
* The library behaviour listed below.

## Modelling conventions

* A `std::string` or `char*` is `List Char`; each `Char` stands for one byte. Theorems hold for
  all `Char`s, hence for the 256 byte values.
* Exceptions and undefined behaviour are outcomes: `Res.ok a`, `Res.throw e`, `Res.ub`; in the
  trace log `Out.to s`, `Out.blocked`, `Out.ub`.
* Counters of type `size_t` (`issued`, `actual_count`, `generation`, queue positions) are
  unbounded `Nat`, unless the property is about wrap-around (C20, C53–C55 use `BitVec 64`, C84 `BitVec w`).
  They wrap only after 2^64 increments. `on_loan` is an `Int`.
* Concurrent parts are transition systems with any number of threads; one step is one access to
  shared memory; every interleaving is an execution; a weak compare-exchange and `try_lock` may
  fail spuriously.

## Assumed library behaviour

`std::getline` on a stringstream, `std::stoi` (strtol rules), `std::to_string`, the `printf`
conversions used (`%d %s %lld %03lld %lx %f`), `std::lldiv`, `std::string::find/replace/copy/
erase/resize`, `std::mutex`, `std::unordered_map/set` as finite maps and sets iterated in some
order, `fopen/fwrite/fclose` with arbitrary results, `steady_clock::now` with arbitrary values,
`strftime`.

## Simplifications

* Sequentially consistent memory, except in the release/acquire models (Model/Weak and the
  models built on it, C62 onwards). The trace log itself uses sequentially consistent atomics
  only (`enabled`, `generation`, the compare-exchanges of `ChunkLock`), the registry and the
  queue use acquire/release.
* Release/acquire memory (Model/Weak) is a view-based operational model: relaxed loads may return
  stale values, release stores and acquire loads synchronise, read-modify-writes continue release
  sequences, plain accesses not ordered by happens-before are data races. It leaves out load
  buffering (as RC11 does), treats `seq_cst` as acquire/release (which allows more executions) and
  has no fences (the source has none). That this model is the C++ memory model restricted to
  executions without load buffering is part of the trusted base.
* Trace log over release/acquire memory: Model/TraceLogWeak (C65, C104–C109) has the mutex and the chunk locks as
  objects that pass on what was known at the release. Model/TraceLogWeakLock (C110–C114) replaces the chunk locks by
  the atomic words of `ChunkLock`, with every compare-exchange and store of src/chunk_lock.cc as a step. The mutex stays
  an object. When a chunk is full is left open. Fairness (C109, C113) is an assumption of those theorems, as is that
  stores to `enabled` are read by every thread in the end.
* Trace log (Model/TraceLog): buffers come from the two factories of the library; buffers of user
  factories are in Model/TraceLogExn (C78) and Model/CustomBuffer (C92). A thread does not log while it holds the mutex of the log;
  Model/LogLocked lifts this (C86). The category
  registry is not part of this state: its own theorems are C06–C10 and C51; Model/Whole joins log,
  registry and trace points (C80), where the events a thread has decided to log may be logged in any
  order (more than the code allows). Thread-local storage
  outlives the model, except in C81. `thread_names` is a function, so its
  size is a parameter of `getStats`.
* `pol = true` in theorems about the trace log means: a stopped callback that runs because
  `start` restarts tracing does not itself start tracing. Theorems without this condition hold
  for any `pol`. With it violated C45 and C46 are refuted: the buffer of the callback's run is
  destroyed by the outer `start` while threads hold its chunks.
* Several logs (Model/TraceLogMany): steps of one thread on different logs interleave in any way,
  which allows more than the code.
* Memory (Model/Memory): sizes and alignments of the standard library's classes are those of libstdc++ on
  64-bit targets; heap overhead, the user's own text and user-made buffers are not counted; an entry of any map
  or set takes the same number of bytes, a parameter.
* Guards (Model/Guards): `logEvent` does not throw; C78 has throwing ones.
* Log with exceptions (Model/TraceLogExn): one thread; callbacks of the user do not start tracing; the
  registry is represented by the categories in force.
* Macros (Model/Macros): the arguments of one call are evaluated from left to right (C++ leaves the
  order open); time arguments are sums of operands; `Res.ub` also stands for programs that do not
  compile. The tables of macro names were copied by hand from the header.
* Model/DynArray: destructors of elements do not throw; the default constructor of element `i` may
  depend on `i` only; `operator new` fails or gives a fresh block. `front` and `back` of an empty
  array are undefined, like the standard containers' (`C70_back_empty`).
* Model/ConfigObject: moved-from configurations are not used again; callbacks and user factories are
  numbers.
* Model/ThreadId: Linux ids (`gettid`), non-zero and below 2^32, unique among live threads, free for
  reuse after exit; `fork` copies the thread-local cache of the calling thread.
* Model/RelaxedAtomic: values are 64-bit words; happens-before established by other means is the
  access `sync`.
* Model/TraceLog takes `getChunk` and `returnChunk` of a ring as one step per queue operation. Model/RingConc opens
  them up; C98_refines shows that nothing new happens there, C98_refuted_wait_free that calls can take longer;
  the theorems on progress of the log (C47_fair_partial, C74 in ring mode) are about steps of Model/TraceLog. For single
  accesses see C101.
  Model/LogBuffer puts the log on top of the opened buffers (C100); there the events stored in chunks are
  counted, not kept. C102 relates the two: what is proved of the states and of the stored events in
  Model/TraceLog holds in Model/LogBuffer too.
* C74 counts the steps of Model/TraceLog; `getChunk` and `returnChunk` are one step each (for the
  steps inside them see C75 and C98), and a round of `try_lock` lost to a spuriously failing
  compare-exchange is not counted. Fair (C47_fair_partial): a thread that can go on from some time
  on does go on.
* C75 counts accesses under sequentially consistent memory; a relaxed reload of a position that
  returns an old value costs a round that is not counted here.
* Chunks have the size of the default `PHOSPHOR_CHUNK_PAGE_COUNT` where it matters.
* Two places that the standard leaves undefined are taken to do what compilers make of them: the downcasts
  of a `ChunkLock` to `MasterChunkLock` and `SlaveChunkLock`, which it is not (chunk_lock.cc:59-61,
  chunk_lock.cc:82-84), and a pointer passed to `printf` for `PRIxPTR` (trace_event.cc:165-171).

## The library's own tests, run on the model

`lean/Verif/Tests` restates the expectations of the library's tests as computations on the model: `Strings` (string_utils,
trace_config, trace_argument, category_registry), `Traces` (trace_event, trace_buffer, chunk_lock, export), `Log`
(trace_log) and `Macros` (macro_test, macro_disabled_test). The model meets all of them. They are evidence that the
definitions say what the code does, not proofs: `example … := by decide` is evaluated by the kernel, `#guard` only by
the evaluator. No theorem depends on them. Differences from the C++ tests:

- Clock readings and the process id are fixed numbers, so that whole texts can be compared instead of single members.
- Tests of enumeration values outside the enumerations (0xFF as a type of event or argument) are left out.
- `TraceEvent::toJSON` passes the `int` 0 where the trace point says `is_bool`. The model calls the read of another
  union member undefined, so the argument is the boolean `false` there.
- `nonBlockingStop` uses a buffer whose chunk is on loan instead of a mock without chunks.
- Tests with several threads run them one after the other: interleavings are the subject of the theorems.
- memory_test, memory_usage_test, threaded_test and the benchmarks have no counterpart.

## Properties

| id | title | what is modelled | how it is proved | status |
|---|---|---|---|---|
| C01 | JSON string encoding is loss-free | `escape_json`, `to_json` (Model/StringUtils) | induction on the string against an independent RFC 8259 string decoder (Spec/Json); refuted for bytes below 0x20 without a short escape | partial |
| C02 | Splitting and joining on a delimiter | `split_string` as the getline loop, `join_string` | induction; uniqueness of the decomposition; exact condition (iff) for the round trip | proved |
| C03 | Category glob patterns | `glob_match` loop with its star flag | induction on the pattern; exact language of every pattern (what follows the first wildcard acts as a subsequence test); compared with an inductively defined glob language (Spec/Glob); witnesses where the code differs from it | proved |
| C04 | string_replace replaces the first occurrence only | `string_replace` | leftmost-occurrence specification | proved |
| C05 | Inline strings keep the first eight bytes | `inline_zstring`, `strnlen_s`, any capacity | list lemmas | proved |
| C06 | Category group enablement decision | `calculateEnabled` | logical characterisation over the glob and split models | proved |
| C07 | A category group has one stable status cell | registry as transition system, one step per memory access (Model/CategoryRegistryConc) | inductive invariant over all schedules | proved |
| C08 | Status cells always reflect the configuration in force | sequential and concurrent registry | invariant: every cell equals the decision for the configuration in force; during an update every cell has the old or the new value | proved |
| C09 | Registry limit is safe | sequential and concurrent registry | bounds invariant; a history that fills the registry | proved |
| C10 | Stopping disables every category | sequential registry | from the invariant of C08 | proved |
| C11 | Configuration string parsing | `updateFromString`, `fromString` (Model/TraceConfig) | independent specification of segments (Spec/Config), induction over segments | proved |
| C12 | Configuration string round trip | `toString`, `fromString` | composition of the C02 lemmas; exact condition for every configuration (also names with separators); refuted by the default configuration | partial |
| C13 | Buffer size values | `std::stoi` and the range checks | specification of decimal reading | proved |
| C14 | Buffer mode names | `to_string(BufferMode)`, `parseBufferMode` | cases; case insensitivity refuted | partial |
| C15 | Trace buffer fits the configured size | size computation of `start` | arithmetic | proved |
| C16 | A chunk stores exactly the events put in it | `TraceChunk`; and the same class for every PHOSPHOR_CHUNK_PAGE_COUNT, with its 16-bit `next_free` (Model/ChunkAny) | invariant over histories of calls; exact condition on the page count; refuted from 641 pages on | partial |
| C17 | Fixed buffer hands out each chunk once | `FixedTraceBuffer` | invariant over histories | proved |
| C18 | Ring buffer reuses only returned chunks | `RingTraceBuffer` with the waiting loop split into steps (Model/BufferSys) | inductive invariant; FIFO order of returned and reused chunks | proved |
| C19 | Iterating a buffer visits every event exactly once | `chunk_iterator`, `event_iterator`, `multidimensional_iterator` | the loop from begin to end equals flattening; termination measure | proved |
| C20 | Return queue capacity is a sufficient power of two | `upper_power_of_two` on `BitVec 64` | bit lemma about smearing; exact condition on the bits of the count; refuted above 2^32 (the shift by 32 is missing) | partial |
| C21 | Return queue is a FIFO under concurrency | `mpmc_bounded_queue`: program counters, positions, sequence numbers (Model/Mpmc) | inductive invariant; refinement to a FIFO | proved |
| C22 | Return queue never overflows or underflows | as C21 | same invariant; a failing call implies a full/empty slot; quiescent queue | proved |
| C23 | Chunk lock mutual exclusion | `ChunkLock` (Model/ChunkLock), spurious CAS failures included | inductive invariant | proved |
| C24 | Non-blocking slave acquisition | as C23 | history of the word during the call | proved |
| C25 | Exported times are exact | `%lld.%03lld` formatting of times (Model/TraceEvent) | decimal-reading function; exact set of times for which the text is legal JSON | partial |
| C26 | Event JSON is well formed and faithful | `TraceEvent::to_json` | parsed with the JSON grammar of Spec/Json; refutations for unescaped string arguments, non-finite doubles; exact condition (`C26_iff`) by a sound and complete parser of the grammar (Proof/JsonParse), which also shows that a text has one reading only | partial |
| C27 | Chunked export is independent of the chunk sizes | `JSONExport::read(n)` state machine (Model/Export) | invariant produced ++ cache ++ pending = document | proved |
| C28 | read() returns the entire document | `JSONExport::read()` | exact condition (iff): wrong when the length is 1 modulo 4096 | partial |
| C29 | Exported document is valid JSON listing everything once | whole document | grammar of Spec/Json; refutations for thread names and large thread ids; exact condition (`C29_iff`) by reading the document element by element | partial |
| C30 | Saving to a file writes the whole document | `FileStopCallback`, `fwrite` results arbitrary | loop invariant; refuted because the result of `fclose` is ignored | partial |
| C31 | Save path expansion | `generateFilePath` | via C04; `strftime` format | proved |
| C32 | Buffer retrieval | `TraceLog` as transition system: any number of threads, one step per memory access, chunk locks, mutex, buffer heap, stopped callbacks that call the log again (Model/TraceLog) | inductive invariants over all interleavings | proved |
| C33 | Only enabled tracing and registered threads record | as C32 | invariants; a disabled call returns in the same state | proved |
| C34 | Fixed-mode trace is complete and ordered | as C32 | ghost record of what each thread stored; relation between calls made and events stored along an execution | proved |
| C35 | A full fixed buffer stops tracing | as C32 | explicit continuation of the calling thread | proved |
| C36 | Stopped callback runs exactly once per run | as C32 with a history of stops and callbacks | invariant about the shape of the history | proved |
| C37 | Restarting notifies the run that ends | as C36 | holds except for the stop made by `start`; refuted by an execution | partial |
| C38 | A rejected start changes nothing | as C32 | refuted: the configuration is overwritten before the size check | partial |
| C39 | Buffers of different runs have different generations | as C32 | invariant | proved |
| C40 | Thread names cover every thread of the trace | as C32 with contexts handed out | invariant; exact set of names; two refutations | partial |
| C41 | Bookkeeping of departed threads is reclaimed | as C32 | names are removed; the set of departed ids is never emptied (refuted) | partial |
| C42 | Registration protocol | as C32 | set of tenants equals the set computed from the history | proved |
| C43 | A retrieved buffer is never written again | as C32 | invariant: no pointer to a handed-out buffer outside the log; frame theorem for every later step | proved |
| C44 | No chunk is shared between threads | as C32 | invariant | proved |
| C45 | Logging never touches freed memory | as C32, undefined behaviour is an outcome | inductive invariant `Inv`; refuted when a callback run by a restarting `start` starts tracing itself | partial |
| C46 | A full buffer stops only its own run | as C45 | invariant on generations; refuted in the same way | partial |
| C47 | stop() completes | as C32 | every fair endless execution finishes a stop in progress (a measure that falls with each step of the stopping thread, and the steps of the logging threads it waits for); from every reachable state with a stop in progress there is a schedule finishing it; refuted for rings with fewer chunks than logging threads (proved that no schedule finishes it) | partial |
| C48 | No event is lost or duplicated under concurrency | as C32 | reading the buffer back (C19) gives exactly the ghost record | proved |
| C49 | Scoped events measure their scope | `ScopedEventGuard` as action lists over arbitrary clock readings (Model/Guards) | direct, nested scopes included | proved |
| C50 | Lock-guard tracing | `MutexEventGuard`, the lock guard macros | direct; counting of lock/unlock actions | proved |
| C51 | Trace points obey the current category configuration | category pointer of a trace point, sequential and concurrent (Model/TracePoint) | invariants on top of C07/C08 | proved |
| C52 | Statistics are truthful | `getStats` of log and buffers | invariants; `loaned_chunks` after stop refuted | partial |
| C53 | Array allocation never overflows | `dyn_array` constructor and `at` | `BitVec`/`Nat` arithmetic | proved |
| C54 | Floating point arguments | `%f` of every double and float bit pattern | independent rounding specification (Spec/Double), uniqueness of the rounding | proved |
| C55 | Integral, boolean and pointer arguments | `TraceArgument::to_string` and the conversions to it | decimal/hexadecimal reading | proved |
| C56 | Asynchronous ids pair up | `asyncStart`/`asyncEnd` ids | injectivity | proved |
| C57 | Independent logs do not interfere | any number of logs sharing the thread-local tenant (Model/TraceLogMany) | simulation: every log runs as if alone when each thread uses one log; two refutations otherwise | partial |
| C58 | Start-up tracing from the environment | `TraceLogConfig::fromEnvironment`, constructor | cases over the parser of C11 | proved |
| C59 | Ring mode keeps the most recent events | as C32 in ring mode | ring order invariant along executions; any number of events | proved |
| C60 | Argument lists stop at the first absent argument | `args` loop of `to_json` | induction | proved |
| C61 | Debug text shows the exact time | `TraceEvent::to_string` | arithmetic of the time split | proved |
| C62 | The return queue is data-race free with its real memory orders | the queue of C21 over a release/acquire memory: messages, per-thread views, vector clocks | simulation of every weak execution by the sequentially consistent model of C21, with ownership of slots | proved |
| C63 | The chunk lock is a lock with its real memory orders | chunk_lock.cc over a release/acquire memory; a plain location stands for the protected chunk | invariant on messages: the newest message carries the knowledge of all holders | proved |
| C64 | The category registry is data-race free with its real memory orders | the registry of C06 to C10 and the trace points of C51 over a release/acquire memory, with other atomics for synchronisation | simulation by the sequentially consistent registry plus an invariant on what count messages, status messages and cached pointers carry | proved |
| C65 | The trace log is data-race free with its real memory orders | all functions of trace_log.cc that log, start, stop, register or take, over a release/acquire memory; fullness, generation and queue order left open (more executions than the code) | invariant with ghost state: newest value of `enabled`, what its last store of true passed on, who owns each chunk, what each lock passes on; one lemma for all memory accesses, one per kind of control step | proved |
| C66 | A trace macro records the event it names | all macros of phosphor.h and phosphor-internal.h as functions of the evaluations and log calls they make; time arguments as token-level sums | unfolding per number of arguments, on top of C60; induction over the operands | partial |
| C67 | Macro arguments are evaluated at most once | as C66 | as C66; counterexamples by computation | partial |
| C68 | Compiling tracing out keeps the program valid and its locking unchanged | the two tables of macro names and parameter counts, the compiled-out lock guards over the world of C50 | case analysis | partial |
| C69 | The exported document is the trace | composition of the interleaved log (Model/TraceLog), trace context, exporter, event serialisation and macros | C34, C43, C59 composed with C27, C29, C30 | proved |
| C70 | dyn_array constructs and destroys every element exactly once | memory as blocks of raw or live cells with a log of allocations, constructions, destructions and releases; all constructors of dyn_array, destructor, access, fill, iteration | induction over the construction and destruction loops | proved |
| C71 | A configuration always makes the buffers it reports | TraceConfig objects with mode, factory, size, callback, flag and category lists; a program of operations on variables of such objects and the start-up trace | invariant over programs; refinement of the configurations of C11-C14 | proved |
| C72 | Every thread has its own id | threads with process, system id and thread-local cache; creation, exit, reuse of ids, fork | invariant over histories; the negation of the full statement by a concrete history | partial |
| C73 | Relaxed counters count | the relaxed accesses of relaxed_atomic.h over the memory of Model/Weak, any number of objects and threads | the history of an object without stores is contiguous, its n-th message is the sum of the first n changes; views | proved |
| C74 | Logging is wait free | as C32; steps are the steps of Model/TraceLog: a round of the chunk lock, a call of getChunk or returnChunk, a load of a shared variable | a measure on program counters that each own step lowers; the two places that can repeat (a chunk lock the thread holds already, an empty ring) are excluded by the invariant and the room condition | partial |
| C75 | The return queue is lock free | as C21 | a measure on program counters that every own step lowers, a claim by another thread raises by at most two and a spurious failure by one; it needs that the cell of the next position is never ahead of it (invariant). For the system: the sum of the measures plus 2m for each call that has not claimed. The negative part by a schedule built by induction | proved |
| C76 | A shared ring has no gaps | the whole log, as C33, with any number of threads | an invariant: the queue of returned chunks followed by the chunks taken since, no two of the latter by the same thread, holds for each thread exactly what has not been overwritten, in order; by induction over every step. A chunk left behind by a stop stays in its place. For the amount also that a returned chunk is full unless a thread deregisters | proved |
| C77 | Iterating over a buffer refers to chunks that exist | the event and chunk iterators with every expression that names a chunk, and the conversions of the index between size_t and int | the constructor of end() is computed for every full buffer (refuted); otherwise strict iteration is shown equal to the iteration of C15 while no index leaves the array | partial |
| C78 | Errors go to the caller that starts or stops tracing | the log for one thread with exceptions, arbitrary factories, callbacks and file system, the file saving callback, guards and destructor (Model/TraceLogExn) | an invariant kept by every call whatever it raises; for each call a condition equivalent to its raising; witnesses for the refuted parts | partial |
| C79 | Contexts own their buffer exactly once | trace_context.cc operation by operation over any number of unique_ptrs and contexts; an exporter as a reference to a context and a buffer | an invariant (every buffer made has one owner or is destroyed, once) kept by each operation, by induction over programs | proved |
| C80 | Only events of enabled categories are recorded | the transition systems of the log, the registry and the trace points joined, with the registry calls at their places in start and stop (Model/Whole) | an invariant linking the history of the log to the categories the registry follows, over every interleaving; each event carries the run in which it was tested as ghost data | partial |
| C81 | A thread that ends leaves nothing behind | the transition system of the log with threads that may end, and accesses to the tenant of an ended thread as undefined behaviour (Model/ThreadEnd) | an invariant: threads to be evicted are registered; frame theorem for the storage of ended threads; an invariant that no stop completes once a registered thread has ended | partial |
| C82 | The trace of nested code is its call tree | guards of Model/Guards nested in programs with throw and try/catch (Model/Scopes) | induction on the program against an independent relation of programs and forests of events (Spec/CallTree); uniqueness of strictly nested forests | proved |
| C83 | Tracing does not change the program | the same programs with and without guards | simulation by induction on the program | proved |
| C84 | The return queue with positions that wrap around | the queue with BitVec w positions and sequence numbers, signed overflow as a separate program counter (Model/MpmcWrap) | step-by-step refinement to the queue with unbounded positions while differences stay below half a word; runs of any length by induction give the three refutations (overflow of the signed subtraction after 2^(w-1)-1 items, spurious failure after a delay of 2^(w-1) claims, lost item after a delay of 2^w claims) | partial |
| C85 | From trace points to the trace | trace points, registry and log together (Model/Whole), with the list of passages that found their category enabled | induction over the execution: counting each event in all buffers, in hand and pending against the passages gives the upper bound; the completeness step of the log (C34) gives equality while a run goes on, and the reading theorem (C48) carries it to the trace | proved |
| C86 | Trace points under the lock of the log | the log with two positions per thread, one for logEvent and one for the code under lock() (Model/LogLocked); try_lock by the owner is undefined | every state is reachable in Model/TraceLog, so its theorems carry over; an invariant shows that a thread logging under the lock carries only a buffer that is the log's and has no chunk left, so the bad try_lock needs that; in that situation it is shown to happen; the witness is the situation of the test nonBlockingStop | partial |
| C87 | Registry calls and trace points finish | the registry with its memory orders (Model/RegistryWeak) | a measure that every step of a thread inside a call decreases; an invariant that every view points to messages that exist and that histories are finite, so every load has a message to read and every store a free place (Proof/WeakWf); the owner of the mutex is inside a critical section | proved |
| C88 | The memory orders cost no execution | the queue, the chunk lock and the registry, each with and without memory orders (Model/Mpmc, MpmcWeak, ChunkLock, ChunkLockWeak, RegistryConc, TracePoint, RegistryWeak) | a simulation: the latest message of every location has the value of the interleaving model (Proof/WeakCur); every thread may read the latest message and write after it; the finishing runs are built in the interleaving model and carried over | proved |
| C89 | The document of a program | the whole program (Model/Whole), the buffers and the exporter | the account of passages (C85) and the absence of gaps in rings (C76) give what the buffer holds; replacing each (trace point, number) by the event the trace point makes of it commutes with reading the buffer, and C29 gives the document | proved |
| C90 | Reading goes on after an exception | JSONExport::read with the exporter it leaves behind when a round of its switch throws (Model/ExportExn) | every read either goes on with the document or stops in front of one item in a state that is determined by the place of the exception; for the places that leave the exporter consistent the rest is read as before (C27), for the others a witness is computed | partial |
| C91 | Errors in formatting are reported | format_string with its two calls of vsnprintf, and events over raw characters (Model/Format) | case analysis over the outcomes of the calls; the raw functions agree with Model/TraceEvent on enumerators and throw elsewhere | partial |
| C92 | What a user's buffer may rely on | the log of Model/TraceLog with any buffer: getChunk, returnChunk and getStats are calls with a beginning and an end, getChunk may answer with any chunk that is not on loan or with none (Model/CustomBuffer); the protocol is stated over the history of the calls alone (Spec/CustomBuffer) | an invariant over the control invariant of the log: which thread is inside a call, which buffer is gone, who has which chunk; every step appends an allowed call | proved |
| C93 | The memory of the tracer | what the log owns in bytes at every moment of each call: class layouts computed from the members, the requests of the factories with 64-bit arithmetic, failing requests, entries of the maps (Model/Memory) | an invariant bounding the blocks held by the size asked for, kept by every call; induction over programs; the peak of a restart is computed for every size and mode | partial |
| C94 | Starts and ends match up when nested | balanced sequences and which start and end belong together, without a stack (Spec/Nesting); a viewer with a stack; the log, buffers, export and macros as for C34, C69, C76 and C66 | the viewer is correct and complete for any sequence (generalised over its stack); a part without gaps has the pairs of the whole; the log loses only the last events of a thread (C34_prefix: once an event is lost the buffer is out of chunks or no longer current, which persists) and a ring only the first; disabled categories remove whole pairs | partial |
| C95 | Times of events lie within the run that recorded them | the log of TraceLog together with a clock that never decreases and that a thread reads when it stores an event; callers may pass times they have measured (Model/Clock) | invariant over all steps: whoever has a chunk has it of the last run, whose stop has not decided about the callback (chunk_recording, from the invariants of C31 and C39); so an event is stored only between the two marks of its run | partial |
| C96 | Logging is linearizable | the log of TraceLog as it is; beside it the recorder (`Legal`, Props/Linear) and what is seen of an execution (`watch`), computed from the execution | a timeline with the effects is carried along the execution: an event takes effect when it is stored or given up, but when it is stored while a stop is under way its effect is put below the stop (`slip`), which lies after the call because a thread that has passed the flag called before the stop | proved |
| C97 | A buffer of enough chunks loses nothing | the log of TraceLog as it is | while nobody has been refused a chunk or had to wait for one, every chunk of the buffer is full or held by its owner, who has used it or is about to (`Fill`, Proof/Capacity); a thread that asks for a chunk has only full ones; so the chunks given out are counted by the events, per thread | proved |
| C98 | The ring buffer keeps its promises over its lock-free queue | RingTraceBuffer with its return queue as one system (Model/RingConc): one step is one access to shared memory, inside the queue too | refinement (`Rel`, Proof/RingConc): each access is an operation of the ring with an atomic queue (C18) or none, the queue operations taking effect at their claims; progress by following the calls from wherever they stand, with the invariant of the queue (Proof/Mpmc) | partial |
| C99 | The ring buffer has no livelock | as C98; an endless execution is a sequence of states and steps, fairness a predicate on it | if no call returned any more, no thread could have claimed a position (it would get through by fairness), so positions stand still, the slots needed are free, and a measure on program counters brings a thread to its claim | proved |
| C100 | The trace log over the code of its built-in buffers | the log of C92 over buffers given by their code: a fixed buffer in single accesses, or the ring of C98 with its queue; what a buffer answers is computed | an invariant linking the log, the contract of C92 and the states of the buffer: who is inside which function, and who holds which chunk, on both sides | proved |
| C101 | Progress of the trace log over the code of its built-in buffers | the composition of C100, in endless executions; fair: who can go on from some time on goes on, and compare-exchanges do not fail spuriously for ever | the ring: the steps of the log project to a fair execution of the ring alone, where C99_progress applies; the stop: while it waits no thread gets further from being clear of its chunk lock, so from some time on nobody does; who is then still inside the ring contradicts C101_progress and a count of held chunks; refuted by an invariant of the jammed state, from which exists_fair makes a fair execution | proved |
| C102 | Opening up getChunk and returnChunk changes nothing the log shows | Model/LogBuffer (the log over the code of its buffers, C100) and Model/TraceLog (the log of atomic buffers); Spec/LogBufferRefine says what a state of the one looks like in the other | a forward simulation: a getChunk happens when the counter is incremented or a position of the queue is claimed, a returnChunk when a position is claimed, deregisterThread when its returnChunk does; every step here is at most two steps there (sim_next), by cases over the steps of the log and of both buffers; then C32, C34, C36, C39, C44, C46 and C48 are carried over | proved |
| C103 | Tracing ends with the event each thread is on | Model/TraceLog; for the code of the buffers Model/LogBuffer through C102 | what a step does to the event in hand and to the events stored; while enabled is false no call gets past its first look at it; a thread that has a chunk while tracing is off is one the stop still waits for (Ctl.comm), so after the stop there is none; by induction over the execution | proved |
| C104 | A stop is final under the memory orders of the source | Model/TraceLogWeak | the invariant of C65: a thread that has a chunk, or is past its second look at enabled, is registered and not yet evicted in the run; one that is not passed all it did to the buffer on to the mutex holder through its chunk lock; the mutex holder knows the newest enabled, so an exchange reads no older one; by induction over the execution | proved |
| C105 | What the chunks hold under the memory orders of the source | Model/TraceLogWeak, with a record of the emptying and storing steps | by induction over the execution with the invariant of C65 (no two threads have one chunk, chunks are of the buffer of the log): the thread with a chunk is the last that emptied it; a chunk of a fixed buffer is handed out once because next only grows and nothing goes in the bag | proved |
| C106 | Progress of the trace log under the memory orders of the source | Model/TraceLogWeak | the memory never blocks: every view points to messages that exist (TraceLogWeakWf); each place in the code has a step by the invariant of C65; a logging call has no loop, shown by a rank; each chunk of a ring that is out has one thread that has it or was evicted with it, and no two have the same one, so a thread that asks for a chunk leaves at most n - 1 out | proved |
| C107 | When a start or a stop takes effect, under the memory orders of the source | Model/TraceLogWeak | the holder of the mutex knows the newest enabled (invariant of C65); views only grow; while tracing stays on nothing is stored to enabled, while it stays off only false | proved |
| C108 | Registration, handed out buffers and sufficient buffers over the code of the built-in buffers | Model/LogBuffer | the refinement of C102 carries C42, C40, C43 and C97 over; a step changes no buffer but that of the log and the one it creates | proved |
| C109 | Every stop comes to its end in a fair execution, under the memory orders of the source | Model/TraceLogWeak | a call begun after the newest value is read by its thread reads false, so each thread finishes at most the call it is in (C106); then the evicting thread can always go on and a count of what is left falls; for the refutation a loop of five steps of the other thread | proved |
| C110 | The trace log keeps its safety when the chunk locks are the atomic words of the code | Model/TraceLogWeakLock over Model/TraceLogWeak | simulation: the newest message of a lock word is 0 exactly when the object is free, and then its view has what the object passes on; a 0 that is not the newest is followed at once by the message of the compare-exchange that read it, so only the newest can be taken; the safety theorems of C65 and C104 are carried over | proved |
| C111 | Events stay where they were stored, and starts and stops take effect, with chunk locks that are the atomic words of the code | Model/TraceLogWeakLock over Model/TraceLogWeak | the simulation of C110 keeps each property that steps keep which empty no chunk, store no event and leave enabled alone; so an execution with lock words makes the same changes as one with lock objects, to which C104, C105 and C107 apply | proved |
| C112 | Logging calls and evictions come to an end with chunk locks that are the atomic words of the code | Model/TraceLogWeakLock over Model/TraceLogWeak | the simulation of C110 keeps the bounds on threads and chunks, so C106 excludes a starved thread; each move of a logging call makes the rest of it shorter; induction on the work left of the eviction, with the newest lock word read by each compare-exchange | proved |
| C113 | In a fair execution every stop ends, with chunk locks that are the atomic words of the code | Model/TraceLogWeakLock over Model/TraceLogWeak | C112 says that a logging call can always go on and when an eviction can; each move of a call or of an eviction makes a measure smaller, a compare-exchange that fails leaves it; the old values of enabled are read no more from some moment on, so from then on no lock is taken but by the evicting thread | proved |
| C114 | No event is dropped after a restart because of the eviction of an earlier stop | Model/TraceLogWeakLock over Model/TraceLogWeak | invariant: the thread with the mutex, or the mutex, knows of the release of each lock word that an eviction had taken, other than the one it has now; the newest start passes that on; no lock word is taken by an eviction while tracing is on | proved |

## Where the code does not do what it should

Each is proved by a `refuted` theorem (or the theorem named).

* C01: bytes below 0x20 other than `\b \f \n \r \t` are copied unescaped into JSON strings.
* C03 (`C03_overaccepts`, `C03_underaccepts`): after `*`, a literal tail is matched as a
  subsequence, not as a suffix; `?`, `*` and `+` after a `*` are not wildcards any more.
* C12: `fromString` rejects the text `toString` makes of the default configuration; separator
  characters in category names break the format.
* C14: buffer modes are documented as case insensitive but compared exactly.
* C16 (`C16_refuted`): `next_free` is a 16-bit number. With a PHOSPHOR_CHUNK_PAGE_COUNT above 640 it
  wraps around before the chunk is full, and old events are overwritten. The default is 1 page.
* C20: `upper_power_of_two` lacks the shift by 32, so counts above 2^32 give no power of two.
* C25: negative times that are not multiples of 1000 print as `-1.-500`-like text.
* C26, C29: string arguments and thread names are not escaped, so they can inject members into the
  document; infinities and NaNs are not JSON; thread ids of 2^31 and more are exported as negative
  numbers.
* C28: `read()` drops the last byte when the length of the document is 1 modulo 4096.
* C30: errors reported by `fclose` are ignored.
* C37: a restart invokes the callback of the new configuration for the end of the old run.
* C38: a rejected `start` has already overwritten the configuration.
* C40: the context lacks threads that deregister between stop and retrieval; a reused id takes the
  name of the later thread.
* C41: `deregistered_threads` is never emptied, so it grows without bound.
* C45, C46: see `pol` above.
* C47: in a ring with fewer chunks than logging threads `stop` can wait for ever for a thread that
  waits for a chunk.
* C50 (`C50_lockguard_silent`): TRACE_LOCKGUARD logs nothing when the clock does not advance,
  although documented to log always.
* C51 (`C51_lookups_refuted`): two threads may both look up the category of one trace point.
* C52: `loaned_chunks` is stale after a stop; `total_loaned` of a ring counts waiting callers.
* C57: a thread that logs to two logs writes events of one into the buffer of the other, or follows
  a dangling pointer.
* C62 (`C62_refuted_spurious_full`): `enqueue` can report a full queue because it read an outdated
  sequence number, with the slot free and nobody else active. Harmless: `returnChunk` retries.
* C63 (`C63_refuted_spurious_fail`): `tryLockSlave` may read an outdated `MasterLocked` and give up
  although nobody holds the lock. The event is lost; the log does nothing else with the answer.
* C64 (`C64_refuted_stale`): a trace point not ordered after a finished `updateEnabled` may still
  read the old status. With ordering (any release/acquire pair) it cannot (`C64_status`).
* C65 (`C65_refuted_callback`): if the stopped callback that runs inside a restarting `start` calls
  `start` itself, the outer `start` afterwards replaces and destroys the buffer while tracing is on;
  a logging thread then reads the buffer pointer in a race and uses a destroyed buffer.
* C66 (`C66_refuted_duration`): TRACE_COMPLETE pastes `end - start` without parentheses around
  `start`, so `TRACE_COMPLETE0(c, n, t + d, e)` records `e - t + d`.
  (`C66_refuted_async_id`, C67): `start` and the id of TRACE_ASYNC_COMPLETE are evaluated twice;
  scoped macros evaluate their arguments also when the category is disabled.
* C68: with tracing compiled out TRACE_FUNCTION1/2 take one parameter more and
  TRACE_ASYNC_COMPLETE0/1/2 do not exist.

* C72: `getCurrentThreadIDCached` caches the id in a thread-local variable that `fork` copies. A
  child whose parent thread had asked for its id records the parent's id for its own events
  (`C72_refuted`, `C72_fork`).
* C73: `RelaxedAtomic::operator=(const RelaxedAtomic&)` is a load and a store; an increment between
  them is lost (`C73_assign_loses`). phosphor does not assign its counters.

* A thread that deregisters while tracing into a ring gives its chunk back partly filled, so a ring
  used by short-lived threads can lose events although most of its slots are free (`C76_leaving`).

* C77 (`C77_refuted`): the iterator constructor evaluates `parent->begin()` although the parent may
  be the end iterator, so `end()` of a full fixed buffer or wrapped ring forms a reference to a chunk
  one past the array (undefined behaviour; every export of a full buffer does it). It is harmless
  with common compilers because only addresses are computed.
  (`C77_refuted_int`): chunk indices pass through `int`; from 2^31 chunks on the wrong chunk is named.
* C78 (`C78_refuted`): when a buffer fills up, the stopped callback runs inside the traced code's
  `logEvent`. If the trace cannot be saved, `std::system_error` is thrown by a TRACE macro; from a
  scoped event it leaves a destructor and the process terminates.
  (`C78_refuted_exit`): the same error in `~TraceLog` terminates the process at exit.
  (`C78_refuted_lost`): a failed write loses the trace, the buffer has been taken out of the log.
  (`C78_refuted_null`): a user factory that returns null is accepted by `start`; the file saving
  callback then dereferences null.
* C79 (`C79_moved_away`): an exporter keeps a reference to its context; moving the context away while
  exporting dereferences null.

* C80 (`C80_refuted`): a trace point tests its category first and logs later (for a scoped event, when
  the scope ends). If tracing is restarted in between with other categories, the buffer of the new run
  contains an event of a category its configuration disables.

* C81 (`C81_refuted`): a registered thread that ends without `deregisterThread` leaves a dangling
  pointer in `registered_chunk_tenants`; the next stop of a running trace dereferences it
  (`C81_stuck`: it cannot complete otherwise). A comment at trace_log.cc:263-280 knows of the problem.
* C84 (`C84_overflow_refuted`, `C84_half_refuted`, `C84_overtaken_refuted`): the signed subtraction of the
  return queue overflows, which is undefined behaviour, when a position reaches 2^63; a thread that is
  suspended inside `enqueue` while 2^63 or 2^64 items go by fails on an empty queue or overwrites an item.
  No process gets that far; the theorems give the exact bounds up to which nothing goes wrong.
* C86 (`C86_refuted`, `C86_certain`): `maybe_stop` calls `mutex.try_lock()`. A thread that holds the lock of
  the log by `lock()` and passes a trace point when the fixed buffer has no chunk left for it tries a
  `std::mutex` it owns, which is undefined behaviour. The library's test nonBlockingStop does this.
* C90 (`C90_refuted_comma`, `C90_refuted_lost`, `C90_refuted_end`): if making the text of an event throws,
  the next `read` repeats the comma, or lacks the event, or dereferences the iterator past the last event.
* C91 (`C91_refuted_cut`): `format_string` compares with `>` where `>=` is needed in its second pass; a text
  that became longer by one byte between the passes is cut silently.
* C95 (`C95_refuted_scope`): a scope entered before a run began and left during it is recorded with a start
  before the run. (`C95_refuted_flag`): an event may be constructed after the stop cleared `enabled`; the run
  ends with the eviction of the threads. (`C95_refuted_ring`): a ring is read by the index of its chunks, so a
  thread's later event may be read before its earlier one.
* C94 (`C94_refuted_leave`): a thread that deregisters, logs, and registers again loses events in the middle of
  its events (`C34_gap`), and the viewer pairs a start with the end of another. (`C94_refuted_ring`): the
  export of a ring lists chunks by their place, not by time, so an end can come before its start; the viewer has
  to sort by time. (`C94_refuted_switch`): a passage tested in one configuration and logged in the next leaves a
  start without end, which then takes the end of the enclosing pair.
* C93 (`C93_refuted_restart`): `buffer = factory(…)` (trace_log.cc:117) frees the old buffer only after the new
  one is complete; a program that starts again without retrieving the buffer needs twice the configured memory
  for a moment, whatever the size. Requirement M.8 speaks of 110% while tracing is enabled, which holds
  (`C93_enabled`). (`C93_refuted_empty`): requirement M.10 (100 KB when the log is empty) fails after enough
  threads deregistered during tracing, see C41.
* C92 (`C92_refuted_alone`): trace_buffer.h:145-147 says a buffer is not thread-safe and used under the lock
  of the log, but `replaceChunk` calls `getChunk` and `returnChunk` without it; a user's buffer written to the
  letter of that comment has data races. (`C92_refuted_returned`): chunks on loan when tracing stops are not
  given back, so a buffer must not wait for them.

## Code not modelled

Windows and macOS branches of `platform/thread.cc`; benchmark and test code; allocation failure other
than of buffers (C70, C78).

## Axioms per theorem

`p` is `propext`, `c` is `Classical.choice`, `q` is `Quot.sound`, `-` is none; from `#print axioms`. The names are those
of MANIFEST.json without their namespace.

* `C01_toJson_decodes_partial` pq, `C01_toJson_injective` pq, `C01_refuted` pq
* `C02_split_pieces_free` pq, `C02_join_intercalate` pq, `C02_join_split` pq, `C02_split_join` pq, `C02_split_join_iff` pq
* `C03_simple` pq, `C03_star_tail` pq, `C03_plus_tail` pq, `C03_prefix_star` pq, `C03_prefix_plus` pq, `C03_complete` pq, `C03_cases` pq, `C03_star` pq, `C03_plus` pq, `C03_overaccepts` pcq, `C03_underaccepts` pcq
* `C04_replace_first` pq, `C04_replace_none` pq, `C04_cases` pq
* `C05_read_back` pcq, `C05_short_exact` pcq, `C05_cstring` pcq, `C05_explicit_length` pq
* `C06_decision` pq, `C06_default` pq
* `C07_stable_cell` pcq, `C07_distinct_cells` pcq, `C07_no_duplicates` pcq, `C07_right_cell` pcq, `C07_no_race` pcq
* `C08_cells_follow_config` pcq, `C08_reference_follows_config` pcq, `C08_concurrent` pcq, `C08_during_update` pcq, `C08_every_execution` pcq
* `C09_bounds` pcq, `C09_full` pcq, `C09_room` pcq, `registry_can_fill` pcq, `C09_concurrent` pcq
* `C10_disableAll` pcq
* `C11_update` pcq, `C11_empty` pcq
* `C12_exact_partial` pcq, `C12_round_trip_partial` pcq, `C12_refuted` pcq
* `C13_size_text` pcq, `C13_decimal` pcq, `C13_no_digits` pcq
* `C14_parse_print` pcq, `C14_print_parse` pcq, `C14_invalid` pcq, `C14_case_refuted` pcq
* `C16_chunk` pcq, `C16_capacity_partial` pcq, `C16_pages_partial` pcq, `C16_refuted` pq
* `C17_fixed` pcq, `C17_distinct` pcq
* `C18_never_null` p, `C18_exclusive` pcq, `C18_fifo` pcq, `C18_waits_only_if_all_loaned` pcq, `C18_on_loan` pcq
* `C19_iterate` pcq
* `C20_exact_partial` pcq, `C20_upper_power_of_two_partial` pcq, `C20_refuted` pq
* `C23_mutual_exclusion` pcq, `C23_word` pcq
* `C24_try_fails_only_under_master` pcq, `C24_try_result` pcq, `C24_transitions` pcq, `C24_progress` pcq
* `C53_allocate` pq, `C53_at` p
* `C21_fifo` pcq, `C21_no_invention` pcq, `C21_once` pcq, `C21_log` p, `C21_positions` pcq
* `C22_bounds` pcq, `C22_no_overwrite` pcq, `C22_no_race` pcq, `C22_enqueue_fails_only_if_full` pcq, `C22_dequeue_fails_only_if_empty` pcq, `C22_quiet_decisions` pcq, `C22_quiet_enqueue` pcq, `C22_quiet_dequeue` pcq
* `C25_exact_partial` pcq, `C25_legal_iff` pcq, `C25_refuted` pcq, `C25_injective` pcq, `C25_refuted_texts` pcq
* `C26_event_json_partial` pcq, `C26_total` pcq, `C26_string_arg_iff` pcq, `C26_iff` pcq, `C26_unambiguous` pcq, `C26_reading` pcq, `C26_misread` pcq, `C26_faithful` pcq, `C26_refuted_quote` pcq, `C26_refuted_injection` pcq, `C26_refuted_double` pcq
* `C54_double_finite` pcq, `C54_float_finite` pcq, `C54_legal_iff` pcq, `C54_float_legal_iff` pcq, `RoundsTo6_unique` pcq
* `C55_integer` pcq, `C55_bool` pcq, `C55_pointer` pcq, `C55_nullptr` pcq, `C55_istring` pcq
* `C56_ids` pcq, `C56_id_of_integer` pq
* `C60_args` pcq, `C60_absent_irrelevant` pcq
* `C61_debug_text` pcq
* `C27_pieces` pcq, `C27_complete` pcq
* `C28_read_all` pcq, `C28_read_all_partial` pcq, `C28_iff` pcq, `C28_refuted` pcq
* `C29_document_partial` pcq, `C29_iff` pcq, `C29_reading` pcq, `C29_refuted_name` pcq, `C29_refuted_injection` pcq, `C29_refuted_tid` pcq
* `C30_save_partial` pcq, `C30_success` pcq, `C30_refuted` pcq
* `C31_path` pcq, `C31_pid` pcq, `C31_timestamp` pcq
* `C32_getBuffer` pq, `C32_getTraceContext` pq, `C32_once` pcq
* `C33_no_chunk` pcq, `C33_disabled` pq, `C33_unregistered` pcq, `C33_unregistered_call` pcq
* `C34_complete` pcq, `C34_stored` pcq, `C34_lost` pcq, `C34_subsequence` pq, `C34_begins` pcq, `C34_window` pcq, `C34_prefix` pcq, `C34_gap` pq
* `C36_stop` pq, `C36_call` pq, `C36_off` pcq, `C36_idle` pq
* `C37_stopped_partial` pq, `C37_refuted` pq
* `C38_rejected_partial` pq, `C38_refuted` pq
* `C39_generation` pcq, `C39_new` pcq, `C39_runs` pq
* `C40_names_partial` pcq, `C40_exact` pcq, `C40_refuted` pq, `C40_refuted_reuse` pq
* `C41_names_partial` pcq, `C41_refuted` pq
* `C42_register` pq, `C42_deregister` pq, `C42_registered` pcq
* `C43_unreferenced` pcq, `C43_step` pcq, `C43_never_written` pcq
* `C44_exclusive` pcq, `C44_unmixed` pcq
* `C45_safe_partial` pcq, `C45_refuted` pq
* `C48_read` pcq, `C48_read_sound` pcq, `C48_stored` pq
* `C15_reject` pq, `C15_accept` pq, `C15_size` pcq
* `C35_full_stops` pcq
* `C46_own_run_partial` pcq, `C46_found_full` p, `C46_refuted` pq
* `C58_startup_trace` pcq, `C58_off` pcq, `C58_parse_error` pcq, `C58_size_error` pcq, `C58_on` pcq
* `C47_partial` pcq, `C47_fair_partial` pcq, `C47_refuted` pcq
* `C52_keys` pcq, `C52_log_keys` pcq, `C52_full` pcq, `C52_total_partial` pcq, `C52_chunk_count` pcq, `C52_loaned_partial` pcq, `C52_loaned_refuted` pcq, `C52_log_numbers` pcq
* `C49_enabled` pq, `C49_disabled` pq, `C49_count` pq, `C49_nested` pcq
* `C50_enabled` pq, `C50_disabled` pq, `C50_lock_throws` pcq, `C50_lock_discipline` pq, `C50_lockguard_silent` pcq, `C50_lockguard_events` pcq, `C50_names` pcq
* `C51_sequential` pcq, `C51_concurrent` pcq, `C51_quiet` pcq, `C51_pointer_stable` pcq, `C51_lookups` pcq, `C51_lookups_refuted` pcq
* `C59_kept` pcq, `C59_last` pcq, `C59_never_stops` pcq, `C59_any_number` pcq
* `C57_alone_partial` pq, `C57_untouched_partial` pq, `C57_references_partial` pcq, `C57_safe_partial` pcq, `C57_refuted_write` pq, `C57_refuted_dangling` pq
* `C62_write_no_race` pcq, `C62_read_no_race` pcq, `C62_fifo` pcq, `C62_once` pcq, `C62_log` p, `C62_no_overwrite` pcq, `C62_handover` pcq, `C62_enqueue_fails` pcq, `C62_dequeue_fails` pcq, `C62_refuted_spurious_full` p
* `C63_exclusive` pcq, `C63_no_race` pcq, `C63_handover` pcq, `C63_debug_assert` pcq, `C63_available` pcq, `C63_try_fails` p, `C63_refuted_spurious_fail` p
* `C64_scan_no_race` pcq, `C64_rescan_no_race` pcq, `C64_write_no_race` pcq, `C64_calculate_no_race` pcq, `C64_configure_no_race` pcq, `C64_lookup` pcq, `C64_same` pcq, `C64_different` pcq, `C64_pointer` pcq, `C64_status` pcq, `C64_tested` pcq, `C64_decides` pcq, `C64_configurations` p, `C64_finish` pcq, `C64_synchronise` pq, `C64_remembers` p, `C64_refuted_stale` pcq
* `C65_no_race` pcq, `C65_no_use_after_free` pcq, `C65_return` pcq, `C65_write` pcq, `C65_exclusive` pcq, `C65_taken` pcq, `C65_take_knows` pcq, `C65_refuted_callback` pq
* `C66_event` pcq, `C66_disabled` pcq, `C66_complete` pcq, `C66_duration_iff` pcq, `C66_complete_partial` pcq, `C66_complete_usage` pq, `C66_scoped` pcq, `C66_async_complete` pcq, `C66_async_complete_text` pcq, `C66_refuted_duration` pq, `C66_refuted_async_id` pcq, `C66_operators` pcq
* `C67_once_partial` pcq, `C67_complete` pq, `C67_scoped` p, `C67_refuted_start` p, `C67_refuted_id` pcq, `C67_refuted_scoped` -
* `C68_interface_partial` pq, `C68_refuted` pcq, `C68_refuted_functions` pcq, `C68_lockguard` p, `C68_lock_ops` p
* `C69_document` pcq, `C69_ring` pcq, `C69_pieces` pcq, `C69_file` pcq, `C69_context` pcq, `C69_macro` pcq
* `C70_make` pq, `C70_destruct` pq, `C70_life` pq, `C70_default` pq, `C70_values` pq, `C70_copy` pq, `C70_access` pq, `C70_iterate` pq, `C70_fill` pq, `C70_back_empty` p
* `C71_mode` pcq, `C71_values` pcq, `C71_environment` pcq, `C71_setters` -, `C71_refines` pcq, `C71_default` pcq
* `C72_own_partial` pq, `C72_distinct_partial` pq, `C72_stable` pq, `C72_fork` pq, `C72_refuted` pq
* `C73_atomic` pq, `C73_no_wrap` pq, `C73_read` pq, `C73_exact` pq, `C73_assign_loses` pq
* `C74_fixed` pcq, `C74_wait_free_partial` pcq, `C74_seventeen_partial` pcq, `C74_never_blocked` pcq, `C98_refuted_wait_free` pcq
* `C75_enqueue` pcq, `C75_dequeue` pcq, `C75_lock_free` pcq, `C75_not_wait_free` pcq
* `C76_no_gaps` pcq, `C76_last` pcq, `C76_amount` pcq, `C76_leaving` pcq
* `C77_refuted` pcq, `C77_refuted_int` pq, `C77_partial` pcq, `C77_loop_partial` pcq, `C77_chunks` pcq
* `C78_refuted` pcq, `C78_refuted_exit` pcq, `C78_refuted_lost` pcq, `C78_refuted_null` pcq, `C78_stop_partial` pcq, `C78_callback_partial` pcq, `C78_unopened_partial` pcq, `C78_start_partial` pcq, `C78_usable_partial` pcq, `C78_log_partial` pcq, `C78_scope_partial` pcq, `C78_destroy_partial` pcq, `C78_defined_partial` pcq, `C78_memory_partial` pcq, `C78_take_partial` p
* `C79_owner` pq, `C79_move` p, `C79_self` p, `C79_names` pcq, `C79_export` pq, `C79_moved_away` pq
* `C80_refuted` pcq, `C80_test` pcq, `C80_off` pcq, `C80_recorded_partial` pcq, `C80_some_run` pcq
* `C81_refuted` pq, `C81_dangling_partial` pcq, `C81_partial` pcq, `C81_storage_partial` pcq, `C81_stuck` pcq
* `C82_tree` pcq, `C82_reconstruct` pcq, `C82_locks` pcq
* `C83_transparent` pcq, `C83_same` pcq
* `C84_wrap_partial` pcq, `C84_defined_partial` pcq, `C84_unlimited` pcq, `C84_overtaken_refuted` pcq, `C84_half_refuted` pcq, `C84_overflow_refuted` pcq
* `C85_once` pcq, `C85_recorded_once` pcq, `C85_stored` pcq, `C85_trace` pcq
* `C86_same` pq, `C86_keeps` pcq, `C86_off` pq, `C86_safe_partial` pcq, `C86_ring` pcq, `C86_outside` pcq, `C86_certain` pcq, `C86_refuted` pq
* `C87_bounded` pcq, `C87_never_stuck` pcq, `C87_finishes` pcq
* `C88_queue` pq, `C88_alone` pcq, `C88_lock` pq, `C88_passed_on` pcq, `C88_gives_up` pcq, `C88_registry` pcq, `C88_sees` pcq
* `C89_document` pcq, `C89_pieces` pcq
* `C90_no_fault` pcq, `C90_written` pcq, `C90_retry_partial` pcq, `C90_comma` pcq, `C90_refuted_comma` pcq, `C90_refuted_lost` pcq, `C90_refuted_end` pcq
* `C91_text` pcq, `C91_failure` pq, `C91_second` pq, `C91_changed_partial` pq, `C91_refuted_cut` pq, `C91_enumerators` pcq, `C91_type` pcq, `C91_first` pcq, `C91_second_arg` pcq
* `C92_protocol` pcq, `C92_defined` pcq, `C92_refuted_alone` pq, `C92_refuted_returned` pq
* `C93_sizes` -, `C93_enabled` pcq, `C93_always_partial` pcq, `C93_twice` pcq, `C93_cleared` pcq, `C93_before` pq, `C93_refuted_restart` pcq, `C93_refuted_empty` pcq, `C93_refuted_small` pq
* `C94_viewer` pq, `C94_one_end` pcq, `C94_one_start` pq, `C94_part` pq, `C94_trace` pcq, `C94_ring` pcq, `C94_document` pcq, `C94_calls` pcq, `C94_program_partial` pcq, `C94_refuted_leave` pcq, `C94_refuted_ring` pcq, `C94_refuted_switch` pcq
* `C95_recorded` pcq, `C95_log` pcq, `C95_order` pcq, `C95_begin` pcq, `C95_end` pcq, `C95_within_partial` pcq, `C95_sorted` pcq, `C95_runs` pcq, `C95_causal` pq, `C95_read` pcq, `C95_refuted_ring` pcq, `C95_refuted_scope` pq, `C95_refuted_flag` pq
* `C96_linearizable` pcq
* `C97_enough` pcq, `C97_file` pcq, `C97_least` pcq, `C97_tight` pcq, `C97_leaving` pcq
* `C98_refines` pcq, `C98_exclusive` pcq, `C98_defined` pcq, `C98_never_blocked` pcq, `C98_get_waits` pcq, `C98_return_waits` pcq, `C98_return_possible` pcq, `C98_get_possible` pcq, `C98_on_loan` pcq, `C98_on_loan_quiet` pcq, `C98_return_stuck` pcq, `C98_get_stuck` pcq, `C98_refuted_wait_free` pcq, `C98_refuted_on_loan` pq
* `C99_progress` pcq, `C99_all_return` pcq, `C99_refuted_starvation` pcq
* `C100_contract` pcq, `C100_defined` pcq, `C100_goes_on` pcq, `C100_accepted` pcq, `C100_exclusive` pcq, `C100_store` pcq, `C100_null` pcq, `C100_kind` pcq, `C100_ring_answers` pcq, `C100_stuck` pcq, `C100_refuted_pointer` pq, `C100_refuted_mutex` pcq
* `C101_wait_free` pcq, `C101_progress` pcq, `C101_stop` pcq, `C101_refuted_room` pcq, `C101_refuted_fair` pcq
* `C102_refines` pcq, `C102_stored` pcq, `C102_subsequence` pcq, `C102_chunks` pcq, `C102_capacity` pcq, `C102_history` pcq
* `C103_finish` pcq, `C103_last` pcq, `C103_quiet` pcq, `C103_opened_finish` pcq, `C103_opened_quiet` pcq
* `C104_none` pcq, `C104_free` pcq, `C104_known` pcq, `C104_callback` pcq, `C104_quiet` pcq, `C104_on` pcq
* `C105_own` pcq, `C105_block` pcq, `C105_one_thread` pcq, `C105_final` pcq, `C105_fixed` pcq
* `C106_moves` pcq, `C106_short` pq, `C106_room` pcq, `C106_logs` pcq, `C106_waits` pcq, `C106_stop` pcq, `C106_refuted_small` p
* `C107_holder` pcq, `C107_passed` p, `C107_tells` pq, `C107_start` pcq, `C107_stop` pcq, `C107_refuted_unknown` pcq, `C107_refuted_stale` pcq
* `C108_registered` pcq, `C108_names` pcq, `C108_unreferenced` pcq, `C108_never_written` pcq, `C108_enough` pcq
* `C109_logs` pcq, `C109_quiet` pcq, `C109_stop` pcq, `C109_refuted_stale` pcq
* `C110_refines` pcq, `C110_no_race` pcq, `C110_no_use_after_free` pcq, `C110_exclusive` pcq, `C110_none` pcq, `C110_known` pcq, `C110_locked` pcq, `C110_assert` pcq, `C110_moves` pcq
* `C111_own` pcq, `C111_block` pcq, `C111_one_thread` pcq, `C111_fixed` pcq, `C111_final` pcq, `C111_quiet` pcq, `C111_on` pcq, `C111_holder` pcq, `C111_start` pcq, `C111_stop` pcq
* `C112_room` pcq, `C112_short` pq, `C112_logs` pcq, `C112_waits` pcq, `C112_stop` pcq, `C112_takes` pcq, `C112_gives_up` pcq
* `C113_logs` pcq, `C113_quiet` pcq, `C113_stop` pcq, `C113_short` pcq, `C113_refuted_stale` pcq
* `C114_word` pcq, `C114_keeps` pcq, `C114_refuted_stale` pq
