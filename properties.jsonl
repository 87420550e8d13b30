{"id": "C01", "title": "JSON string encoding is loss-free", "statement": "to_json(s), read back by an RFC 8259 string decoder, gives exactly s; equivalently the text is a legal JSON string literal and no byte of s is lost or altered.", "quantifier": "every byte string s", "why_tests_cant": "Strings of every length and byte content; a test samples a handful of characters.", "anchors": ["src/utils/string_utils.cc:escape_json", "src/utils/string_utils.cc:to_json"]}
{"id": "C02", "title": "Splitting and joining on a delimiter", "statement": "split_string(s,d) yields delimiter-free pieces that, joined with d, reconstruct s up to one trailing delimiter; splitting a joined list of delimiter-free pieces returns that list whenever it is non-empty and its last piece is non-empty (or it is the single empty piece).", "quantifier": "every string, every delimiter, every list of pieces", "why_tests_cant": "Unbounded strings and lists, including consecutive, leading and trailing delimiters.", "anchors": ["src/utils/string_utils.cc:split_string", "src/utils/string_utils.cc:join_string"]}
{"id": "C03", "title": "Category glob patterns", "statement": "A pattern without * or + matches exactly the strings of the same length that agree with it at every non-? position; 'prefix*' matches exactly the strings starting with prefix and 'prefix+' those with at least one more character; a pattern with * or + whose tail is literal matches every string the ordinary glob language accepts, and exactly those strings whose remainder contains the tail as a subsequence.", "quantifier": "every pattern and every subject string", "why_tests_cant": "The pattern/subject space is infinite and the loop carries state (the star flag) across iterations.", "anchors": ["src/utils/string_utils.cc:glob_match"]}
{"id": "C04", "title": "string_replace replaces the first occurrence only", "statement": "string_replace(s, from, to) replaces the leftmost occurrence of a non-empty from by to and leaves every other byte in place; if from does not occur or is empty s is unchanged.", "quantifier": "all strings s, from, to", "why_tests_cant": "All overlaps of pattern and subject cannot be enumerated.", "anchors": ["src/utils/string_utils.cc:string_replace"]}
{"id": "C05", "title": "Inline strings keep the first eight bytes", "statement": "An inline string argument built from any byte string reads back as the first max_length bytes of it cut at its first NUL, never reads past its storage, and strings of at most max_length bytes without NUL read back unchanged.", "quantifier": "all byte strings, all lengths passed, every inline capacity", "why_tests_cant": "Boundary at and around the capacity for every content and every capacity.", "anchors": ["include/phosphor/inline_zstring.h:inline_zstring", "src/utils/string_utils.cc:strnlen_s"]}
{"id": "C06", "title": "Category group enablement decision", "statement": "A category group is enabled by (enabled, disabled) pattern lists iff some comma-separated category in it matches an enabled pattern and matches no disabled pattern.", "quantifier": "every group string and every pair of pattern lists", "why_tests_cant": "Unbounded lists of patterns and categories.", "anchors": ["src/category_registry.cc:CategoryRegistry::calculateEnabled"]}
{"id": "C07", "title": "A category group has one stable status cell", "statement": "Whatever calls are interleaved by any number of threads, all getCategoryStatus calls for the same group string return the same status cell once it is registered, two different groups never share a cell while the registry has room, and no group is entered twice.", "quantifier": "every number of threads, every interleaving of lookups, insertions and updates", "why_tests_cant": "Races between the lock-free scan and the locked insertion depend on the schedule.", "anchors": ["src/category_registry.cc:CategoryRegistry::getStatus"]}
{"id": "C08", "title": "Status cells always reflect the configuration in force", "statement": "After any history of lookups, enables and disables the status cell of every registered group equals the decision of C06 for the configuration currently in force, no matter whether the group was registered before or after the configuration changed.", "quantifier": "every history of registry operations", "why_tests_cant": "Histories are unbounded; ordering of registration versus configuration matters.", "anchors": ["src/category_registry.cc:updateEnabled", "src/category_registry.cc:disableAll", "src/category_registry.cc:getStatus"]}
{"id": "C09", "title": "Registry limit is safe", "statement": "The number of registered groups never exceeds 250 and never shrinks, no lookup reads or writes outside the arrays, and once full every unknown group maps to the shared 'category limit reached' cell.", "quantifier": "every history of registry operations", "why_tests_cant": "Needs every history, including more than 250 distinct names.", "anchors": ["include/phosphor/category_registry.h:registry_size", "src/category_registry.cc:getStatus"]}
{"id": "C10", "title": "Stopping disables every category", "statement": "After disableAll every status cell handed out before or after reads Disabled until the next enable.", "quantifier": "every history followed by disableAll and any further lookups", "why_tests_cant": "Groups first seen after the stop must be covered as well as those before.", "anchors": ["src/category_registry.cc:disableAll"]}
{"id": "C11", "title": "Configuration string parsing", "statement": "updateFromString applies the key:value pairs from left to right, last one winning; an unknown key has no effect; a segment that is not exactly key:value, a bad buffer mode or a bad size raises invalid_argument; no other field is changed by a key.", "quantifier": "every configuration string", "why_tests_cant": "Strings are unbounded; malformed segments may appear anywhere.", "anchors": ["src/trace_config.cc:TraceConfig::updateFromString", "src/trace_config.cc:TraceConfig::fromString"]}
{"id": "C12", "title": "Configuration string round trip", "statement": "fromString(c.toString()) gives back c's buffer mode, buffer size and category lists.", "quantifier": "every TraceConfig", "why_tests_cant": "Must hold for every size and every category list.", "anchors": ["src/trace_config.cc:TraceConfig::toString", "src/trace_config.cc:TraceConfig::fromString"]}
{"id": "C13", "title": "Buffer size values", "statement": "A decimal buffer-size n is accepted with value n iff 0 <= n <= INT_MAX; negative and larger ones, and text with no leading digits, raise invalid_argument.", "quantifier": "every integer and every text value", "why_tests_cant": "Unbounded integers; boundary at INT_MAX.", "anchors": ["src/trace_config.cc:TraceConfig::updateFromString (buffer-size)"]}
{"id": "C14", "title": "Buffer mode names", "statement": "to_string and parseBufferMode are mutually inverse on the valid modes; every other name raises invalid_argument; parsing ignores case as the header documents.", "quantifier": "every mode and every name", "why_tests_cant": "All names, not just the three spelled in lower case.", "anchors": ["src/trace_buffer.cc:parseBufferMode", "src/trace_buffer.cc:to_string"]}
{"id": "C15", "title": "Trace buffer fits the configured size", "statement": "start() with a byte budget below one chunk raises invalid_argument; otherwise the buffer created has the largest number of chunks whose total size does not exceed the budget, and at least one.", "quantifier": "every byte budget", "why_tests_cant": "All budgets, including boundary values around multiples of the chunk size.", "anchors": ["src/trace_log.cc:TraceLog::start", "include/phosphor/trace_buffer.h:TraceChunk"]}
{"id": "C16", "title": "A chunk stores exactly the events put in it", "statement": "From reset, a chunk accepts exactly capacity events, returns them in insertion order, reports their number, and refuses further events with out_of_range without disturbing stored ones.", "quantifier": "every sequence of events on a chunk of every capacity", "why_tests_cant": "Sequence lengths below, at and above capacity with arbitrary events.", "anchors": ["src/trace_buffer.cc:TraceChunk"]}
{"id": "C17", "title": "Fixed buffer hands out each chunk once", "statement": "A fixed buffer of N chunks hands out N distinct chunks, each once, then null for ever; is_full, chunk_count and the loan statistics agree with the number handed out and returned, for any interleaving of getChunk and returnChunk.", "quantifier": "every N and every history of get/return", "why_tests_cant": "Histories of any length.", "anchors": ["src/trace_buffer.cc:FixedTraceBuffer"]}
{"id": "C18", "title": "Ring buffer reuses only returned chunks", "statement": "A ring buffer never returns null; a chunk is never loaned to two holders at once; chunks are reused in the order in which they were returned; it only waits when every chunk is on loan.", "quantifier": "every N and every history of get/return in which holders only return what they hold", "why_tests_cant": "Histories of any length.", "anchors": ["src/trace_buffer.cc:RingTraceBuffer"]}
{"id": "C19", "title": "Iterating a buffer visits every event exactly once", "statement": "Iterating from begin() to end() terminates and visits exactly the events of chunk 0, then chunk 1, ... in order, skipping empty chunks, and reports for each event the thread id of the chunk that holds it.", "quantifier": "every buffer content, including empty chunks anywhere", "why_tests_cant": "Any number and placement of empty and full chunks.", "anchors": ["include/gsl_p/iterator.h:multidimensional_iterator", "src/trace_buffer.cc:TraceBuffer::chunk_iterator"]}
{"id": "C20", "title": "Return queue capacity is a sufficient power of two", "statement": "For every chunk count the return queue is sized to the smallest power of two that is at least two and at least the chunk count.", "quantifier": "every 64-bit chunk count >= 1", "why_tests_cant": "2^64 values, with the interesting ones beyond 2^32.", "anchors": ["src/trace_buffer.cc:RingTraceBuffer::upper_power_of_two"]}
{"id": "C21", "title": "Return queue is a FIFO under concurrency", "statement": "For any number of concurrent enqueuers and dequeuers in any interleaving, items come out in the order in which enqueue positions were claimed, each enqueued item is dequeued at most once and nothing that was not enqueued is dequeued.", "quantifier": "every number of threads, every interleaving, every capacity", "why_tests_cant": "Lock-free algorithm; schedules cannot be enumerated.", "anchors": ["thirdparty/dvyukov/include/dvyukov/mpmc_bounded_queue.h:enqueue", "thirdparty/dvyukov/include/dvyukov/mpmc_bounded_queue.h:dequeue"]}
{"id": "C22", "title": "Return queue never overflows or underflows", "statement": "The queue never holds more items than its capacity, a slot is never overwritten before its item has been read, and enqueue (dequeue) reports failure only if at that moment the slot it needs has not been emptied (filled).", "quantifier": "every number of threads, every interleaving, every capacity", "why_tests_cant": "Lock-free algorithm; schedules cannot be enumerated.", "anchors": ["thirdparty/dvyukov/include/dvyukov/mpmc_bounded_queue.h"]}
{"id": "C23", "title": "Chunk lock mutual exclusion", "statement": "At every moment at most one thread holds a chunk lock, in either slave or master role.", "quantifier": "every number of threads, every interleaving, spurious CAS failures included", "why_tests_cant": "Schedules and spurious failures cannot be enumerated.", "anchors": ["src/chunk_lock.cc:ChunkLock"]}
{"id": "C24", "title": "Non-blocking slave acquisition", "statement": "tryLockSlave returns false only if the lock was held by the master at some moment of the call, and returns true only with the slave lock held; lock and unlock transitions follow the documented state diagram.", "quantifier": "every number of threads, every interleaving, spurious CAS failures included", "why_tests_cant": "Schedules and spurious failures cannot be enumerated.", "anchors": ["src/chunk_lock.cc:ChunkLock::tryLockSlave", "src/chunk_lock.cc:ChunkLock::lockMaster"]}
{"id": "C25", "title": "Exported times are exact", "statement": "The ts (and dur) number exported for an event denotes exactly its time (duration) in microseconds to nanosecond precision, and is a legal JSON number.", "quantifier": "every event time and duration", "why_tests_cant": "2^64 values each; boundary at sign change and at the microsecond padding.", "anchors": ["src/trace_event.cc:TraceEvent::to_json", "src/trace_event.cc:TraceEvent::typeToJSON"]}
{"id": "C26", "title": "Event JSON is well formed and faithful", "statement": "to_json of an event is a legal JSON object whose members name, cat, ph, ts, pid, tid and args carry the event's name, category, phase letter, time, process, thread and arguments.", "quantifier": "every event: type, strings, argument types and values, time, thread id", "why_tests_cant": "All strings and values; escaping errors show only for particular bytes.", "anchors": ["src/trace_event.cc:TraceEvent::to_json", "include/phosphor/trace_argument.h:TraceArgument::to_string"]}
{"id": "C27", "title": "Chunked export is independent of the chunk sizes", "statement": "Concatenating what successive read(n_i) calls return gives a prefix of one fixed document and, once a read with n>0 returns nothing, the whole document; no byte is lost, duplicated or reordered whatever the sizes.", "quantifier": "every trace and every sequence of read sizes, zero included", "why_tests_cant": "Every split point of every document.", "anchors": ["src/tools/export.cc:JSONExport::read(char*, size_t)"]}
{"id": "C28", "title": "read() returns the entire document", "statement": "JSONExport::read() without a length returns the whole JSON document.", "quantifier": "every trace", "why_tests_cant": "Depends on the document length modulo the internal block size.", "anchors": ["src/tools/export.cc:JSONExport::read()", "src/tools/export.cc:JSONExport::done"]}
{"id": "C29", "title": "Exported document is valid JSON listing everything once", "statement": "The exported document is a legal JSON object {\"traceEvents\":[...]} whose array holds one metadata object per named thread and one object per event, events in buffer order.", "quantifier": "every trace: any number of threads, any number of chunks and events", "why_tests_cant": "Comma placement depends on which of the two lists are empty; contents unbounded.", "anchors": ["src/tools/export.cc:JSONExport::read", "src/tools/export.cc:threadAssociationToString"]}
{"id": "C30", "title": "Saving to a file writes the whole document", "statement": "The file-saving stop callback writes exactly the exported document to the file, or raises an error.", "quantifier": "every trace and every short-write behaviour of the file", "why_tests_cant": "Document length and failure point are arbitrary.", "anchors": ["src/tools/export.cc:FileStopCallback::operator()"]}
{"id": "C31", "title": "Save path expansion", "statement": "The save path is the configured path with its first %p replaced by the process id and its first %d by the timestamp, everything else unchanged.", "quantifier": "every configured path, process id and time", "why_tests_cant": "All paths with any placement of the wildcards.", "anchors": ["src/tools/export.cc:FileStopCallback::generateFilePath"]}
{"id": "C32", "title": "Buffer retrieval", "statement": "getBuffer and getTraceContext raise logic_error iff tracing is enabled; otherwise they hand over the buffer of the last run exactly once and null afterwards, and change nothing else.", "quantifier": "every history of TraceLog calls", "why_tests_cant": "Unbounded histories.", "anchors": ["src/trace_log.cc:TraceLog::getBuffer", "src/trace_log.cc:TraceLog::getTraceContext"]}
{"id": "C33", "title": "Only enabled tracing and registered threads record", "statement": "logEvent has no effect at all when tracing is disabled or when the calling thread is not registered, and a thread that is not registered never holds a chunk.", "quantifier": "every history of TraceLog calls by any threads", "why_tests_cant": "Unbounded histories.", "anchors": ["src/trace_log.cc:TraceLog::logEvent", "src/trace_log.cc:TraceLog::getChunkTenant"]}
{"id": "C34", "title": "Fixed-mode trace is complete and ordered", "statement": "After any sequence of calls the buffer of a fixed-mode run contains, per thread, exactly the events that thread logged while registered in that run in the order logged, each tagged with that thread's id, until the run stopped because the buffer was full.", "quantifier": "every history of TraceLog calls by any threads", "why_tests_cant": "Unbounded histories with interleaved threads.", "anchors": ["src/trace_log.cc:TraceLog", "src/trace_buffer.cc:FixedTraceBuffer"]}
{"id": "C35", "title": "A full fixed buffer stops tracing", "statement": "In fixed mode, the first logEvent of a registered thread that needs a chunk when all chunks have been handed out turns tracing off (when the log is not locked by somebody else) and discards only that event.", "quantifier": "every history reaching a full buffer", "why_tests_cant": "Any combination of threads and sizes.", "anchors": ["src/trace_log.cc:TraceLog::getChunkTenant", "src/trace_log.cc:TraceLog::maybe_stop"]}
{"id": "C36", "title": "Stopped callback runs exactly once per run", "statement": "Each transition from enabled to disabled invokes the configured stopped callback exactly once, except on destruction when stop-on-destruct is off; stop on a stopped log invokes nothing.", "quantifier": "every history of TraceLog calls", "why_tests_cant": "Unbounded histories.", "anchors": ["src/trace_log.cc:TraceLog::stop"]}
{"id": "C37", "title": "Restarting notifies the run that ends", "statement": "When start() is called while tracing is enabled, the stopped callback of the run being stopped is the one invoked.", "quantifier": "every pair of configurations and every history", "why_tests_cant": "Any two configurations in any state.", "anchors": ["src/trace_log.cc:TraceLog::start"]}
{"id": "C38", "title": "A rejected start changes nothing", "statement": "If start() raises invalid_argument the log keeps tracing (or not) as before, with the same buffer and the same reported configuration.", "quantifier": "every history ending in a rejected start", "why_tests_cant": "Any prior state.", "anchors": ["src/trace_log.cc:TraceLog::start"]}
{"id": "C39", "title": "Buffers of different runs have different generations", "statement": "Every buffer created by a TraceLog carries a generation number different from, and larger than, those of all buffers created before it.", "quantifier": "every history of TraceLog calls", "why_tests_cant": "Unbounded histories.", "anchors": ["src/trace_log.cc:TraceLog::start"]}
{"id": "C40", "title": "Thread names cover every thread of the trace", "statement": "The trace context names every thread that was registered with a name at some point while the trace was being conducted.", "quantifier": "every history of TraceLog calls", "why_tests_cant": "Unbounded histories with deregistration at any point.", "anchors": ["src/trace_log.cc:TraceLog::registerThread", "src/trace_log.cc:TraceLog::deregisterThread", "include/phosphor/trace_context.h:TraceContext::thread_names"]}
{"id": "C41", "title": "Bookkeeping of departed threads is reclaimed", "statement": "Once a new run starts, threads that deregistered in earlier runs leave no name and no other record behind.", "quantifier": "every history of TraceLog calls", "why_tests_cant": "Unbounded histories.", "anchors": ["src/trace_log.cc:TraceLog::clearDeregisteredThreads"]}
{"id": "C42", "title": "Registration protocol", "statement": "registerThread raises logic_error iff the thread is registered, deregisterThread iff it is not; a refused call changes nothing; the set of registered tenants is exactly the threads whose last successful call was registerThread.", "quantifier": "every history of TraceLog calls", "why_tests_cant": "Unbounded histories.", "anchors": ["src/trace_log.cc:TraceLog::registerThread", "src/trace_log.cc:TraceLog::deregisterThread"]}
{"id": "C43", "title": "A retrieved buffer is never written again", "statement": "Once getBuffer or getTraceContext has handed a buffer out, no thread writes an event to it or takes or returns a chunk of it, whatever logging was in flight when tracing stopped.", "quantifier": "every number of threads and every interleaving of log, start, stop, register, deregister and retrieval", "why_tests_cant": "Depends on in-flight threads at the moment of the stop.", "anchors": ["src/trace_log.cc:TraceLog::evictThreads", "src/trace_log.cc:TraceLog::getChunkTenant"]}
{"id": "C44", "title": "No chunk is shared between threads", "statement": "At every moment each chunk is held by at most one thread, so events of different threads never mix in a chunk.", "quantifier": "every number of threads and every interleaving", "why_tests_cant": "Schedules cannot be enumerated.", "anchors": ["src/trace_log.cc:TraceLog::replaceChunk", "src/trace_buffer.cc"]}
{"id": "C45", "title": "Logging never touches freed memory", "statement": "No interleaving of the public operations makes a logging thread use a null or destroyed buffer or a chunk of a destroyed buffer, and storing an event never fails for lack of room in the chunk.", "quantifier": "every number of threads and every interleaving, including stop callbacks that retrieve the buffer or restart tracing", "why_tests_cant": "Schedules cannot be enumerated.", "anchors": ["src/trace_log.cc:TraceLog::replaceChunk", "src/trace_log.cc:TraceLog::start"]}
{"id": "C46", "title": "A full buffer stops only its own run", "statement": "A thread that found the buffer of one run full never stops a later run.", "quantifier": "every number of threads and every interleaving", "why_tests_cant": "Needs a restart exactly between the observation and the stop.", "anchors": ["src/trace_log.cc:TraceLog::maybe_stop"]}
{"id": "C47", "title": "stop() completes", "statement": "A call to stop() can always complete: no reachable state leaves it waiting for ever on a logging thread.", "quantifier": "every number of threads, every buffer mode and size and every interleaving", "why_tests_cant": "Depends on the schedule and on the ratio of threads to chunks.", "anchors": ["src/trace_log.cc:TraceLog::evictThreads", "src/trace_buffer.cc:RingTraceBuffer::getChunk"]}
{"id": "C48", "title": "No event is lost or duplicated under concurrency", "statement": "In fixed mode, under any interleaving, when the run is over its buffer holds for each thread exactly the events for which that thread's logEvent stored an event, in order and once each.", "quantifier": "every number of threads and every interleaving", "why_tests_cant": "Schedules cannot be enumerated.", "anchors": ["src/trace_log.cc", "src/trace_buffer.cc:FixedTraceBuffer"]}
{"id": "C49", "title": "Scoped events measure their scope", "statement": "A scoped trace logs exactly one Complete event at scope exit, carrying the entry time and exit minus entry as duration, iff its category was enabled at scope entry; otherwise it logs nothing and reads no clock.", "quantifier": "every clock behaviour, every enablement at entry and exit", "why_tests_cant": "All clock readings and enablement changes inside the scope.", "anchors": ["include/phosphor/scoped_event_guard.h:ScopedEventGuard"]}
{"id": "C50", "title": "Lock-guard tracing", "statement": "The mutex guard locks exactly once on entry and unlocks exactly once on exit whether or not tracing is on, and logs the wait and held events together (in that order, after the unlock) iff the category was enabled at entry and one of the two durations exceeds the threshold.", "quantifier": "every clock behaviour, threshold and enablement", "why_tests_cant": "All durations around the threshold.", "anchors": ["include/phosphor/scoped_event_guard.h:MutexEventGuard"]}
{"id": "C51", "title": "Trace points obey the current category configuration", "statement": "A trace point, however often it has been executed before, reaches the log iff its category group is enabled under the configuration in force at that moment; it looks its category up at most once.", "quantifier": "every history of configuration changes and executions of any trace points", "why_tests_cant": "The category pointer is cached at first use; later configuration changes must still take effect.", "anchors": ["include/phosphor/phosphor-internal.h:PHOSPHOR_INTERNAL_TRACE_EVENT2", "include/phosphor/phosphor-internal.h:PHOSPHOR_INTERNAL_INITIALIZE_CATEGORY_ENABLED"]}
{"id": "C52", "title": "Statistics are truthful", "statement": "getStats reports every documented key; on a fixed buffer chunk_count equals buffer_size iff the buffer is full; loaned_chunks is the number of chunks currently loaned to threads; total_loaned counts loans.", "quantifier": "every history of TraceLog calls", "why_tests_cant": "Unbounded histories, including after stop.", "anchors": ["src/trace_buffer.cc:getStats", "src/trace_log.cc:TraceLog::getStats"]}
{"id": "C53", "title": "Array allocation never overflows", "statement": "A dyn_array request either raises out_of_range or allocates exactly count*sizeof(T) bytes without 64-bit wrap-around; element access through at() is in bounds or raises.", "quantifier": "every count and element size", "why_tests_cant": "2^64 counts for every element size.", "anchors": ["include/gsl_p/dyn_array.h:__allocate", "include/gsl_p/dyn_array.h:at"]}
{"id": "C54", "title": "Floating point arguments", "statement": "A double argument is exported as its value rounded to six decimals and is a legal JSON number iff it is finite.", "quantifier": "all 2^64 bit patterns", "why_tests_cant": "2^64 values including NaN, infinities and subnormals.", "anchors": ["include/phosphor/trace_argument.h:TraceArgument::to_string"]}
{"id": "C55", "title": "Integral, boolean and pointer arguments", "statement": "Every integer argument of any supported width and signedness is exported as its decimal value, booleans as true/false, pointers as a quoted hexadecimal address.", "quantifier": "all values of all supported integer types", "why_tests_cant": "Sign extension and range boundaries for every width.", "anchors": ["include/phosphor/trace_argument.h:ARGUMENT_CONVERSION", "include/phosphor/trace_argument.h:TraceArgument::to_string"]}
{"id": "C56", "title": "Asynchronous ids pair up", "statement": "An async start and an async end event export the same id text iff they were given the same 64-bit id.", "quantifier": "all pairs of ids", "why_tests_cant": "2^128 pairs.", "anchors": ["src/trace_event.cc:TraceEvent::typeToJSON"]}
{"id": "C57", "title": "Independent logs do not interfere", "statement": "Operations on one TraceLog instance never write to, or keep references into, the buffer of another instance.", "quantifier": "every history over any number of TraceLog instances", "why_tests_cant": "The chunk holder is thread-local, shared by all instances; histories are unbounded.", "anchors": ["src/trace_log.cc:thread_chunk"]}
{"id": "C58", "title": "Start-up tracing from the environment", "statement": "A default-constructed log starts tracing with the configuration parsed from PHOSPHOR_TRACING_START iff that variable is set and non-empty, and propagates a parse or size error.", "quantifier": "every environment value", "why_tests_cant": "All strings.", "anchors": ["src/trace_config.cc:TraceLogConfig::fromEnvironment", "src/trace_log.cc:TraceLog::TraceLog", "src/trace_log.cc:TraceLog::configure"]}
{"id": "C59", "title": "Ring mode keeps the most recent events", "statement": "In ring mode with N chunks a single logging thread never stops and the buffer always holds at least its last (N-1)*capacity+1 events (all of them if fewer were logged) and nothing else, each exactly once.", "quantifier": "every N >= 1 and every number of events", "why_tests_cant": "Unbounded event counts, every wrap-around position.", "anchors": ["src/trace_buffer.cc:RingTraceBuffer", "src/trace_log.cc:TraceLog::logEvent"]}
{"id": "C60", "title": "Argument lists stop at the first absent argument", "statement": "The exported args object lists the arguments in order up to the first absent one, with their names, and an absent argument's name is never dereferenced.", "quantifier": "every combination of argument types", "why_tests_cant": "All type/value/name combinations including null names.", "anchors": ["src/trace_event.cc:TraceEvent::to_json"]}
{"id": "C61", "title": "Debug text shows the exact time", "statement": "TraceEvent::to_string shows the event's time exactly as days, hours (<24), minutes (<60), seconds (<60) and nanoseconds (nine digits), followed by the category, name, type and both arguments.", "quantifier": "every event with a non-negative time", "why_tests_cant": "2^63 times and all argument types and strings.", "anchors": ["src/trace_event.cc:TraceEvent::to_string", "src/trace_event.cc:TraceEvent::typeToString"]}
{"id": "C62", "title": "The return queue is data-race free with its real memory orders", "statement": "With the relaxed, acquire and release orders the source uses, no access to a slot of the bounded MPMC queue is a data race, items still come out in the order they were claimed, each at most once and none invented, a slot is not overwritten before it was read, and everything the enqueuer did before publishing an item happens before the dequeue of that item returns (so a returned chunk can be reused).", "quantifier": "every capacity 2^k with k >= 1, every number of threads, every execution of a release/acquire memory model", "why_tests_cant": "Missing orders do not show on strongly ordered hardware; reorderings and stale reads cannot be forced by a test.", "anchors": ["thirdparty/dvyukov/include/dvyukov/mpmc_bounded_queue.h", "src/trace_buffer.cc:RingTraceBuffer"]}
{"id": "C63", "title": "The chunk lock is a lock with its real memory orders", "statement": "With the acquire, release and relaxed orders the source uses, at most one thread holds a chunk lock, an access of the holder to the protected data is never a data race, everything a holder did happens before everything the next holder does, the assertions of a debug build hold, and tryLockSlave gives up only on having read that the master holds the lock.", "quantifier": "every number of threads, every execution of a release/acquire memory model", "why_tests_cant": "Missing orders do not show on strongly ordered hardware; stale reads cannot be forced by a test.", "anchors": ["src/chunk_lock.cc", "include/phosphor/chunk_lock.h"]}
{"id": "C64", "title": "The category registry is data-race free with its real memory orders", "statement": "With the relaxed, acquire and release orders the source uses, no access to a group name or to the configured patterns is a data race, all lookups of a group return the one cell with that name (or the overflow cell of a full registry), a trace point only ever tests the cell of its own category, and whatever status it reads was computed for that group from an installed configuration that is not older than any update the thread is ordered after.", "quantifier": "every number of threads, calls, configurations and trace points, every execution of a release/acquire memory model", "why_tests_cant": "The lock-free scan and the cached pointers depend on acquire/release pairs that strongly ordered hardware never breaks; stale reads cannot be forced by a test.", "anchors": ["src/category_registry.cc:CategoryRegistry::getStatus", "src/category_registry.cc:CategoryRegistry::updateEnabled", "src/category_registry.cc:CategoryRegistry::disableAll", "include/phosphor/phosphor-internal.h:PHOSPHOR_INTERNAL_INITIALIZE_CATEGORY_ENABLED"]}
{"id": "C65", "title": "The trace log is data-race free with its real memory orders", "statement": "With the atomics as the only synchronisation besides the mutex and the chunk locks, no access to the buffer pointer, the chunk pointers, the configuration, the members of a buffer or the contents of a chunk is a data race or touches a destroyed buffer; a thread that stores an event or returns a chunk has a chunk of the current, untaken buffer; no two threads store into the same chunk; the thread that takes the buffer knows every event in it and nobody else accesses it any more. This holds as long as a stopped callback that runs because start restarts tracing does not itself call start.", "quantifier": "every number of threads, every sequence of log, register, deregister, start, stop, getBuffer and getStats calls, every execution of a release/acquire memory model", "why_tests_cant": "The hand-over of chunks relies on the order in which enabled, the chunk locks and the mutex pass on knowledge; a missing edge is invisible on strongly ordered hardware and only shows as rare corruption elsewhere.", "anchors": ["src/trace_log.cc:TraceLog::getChunkTenant", "src/trace_log.cc:TraceLog::replaceChunk", "src/trace_log.cc:TraceLog::evictThreads", "src/trace_log.cc:TraceLog::start", "src/trace_log.cc:TraceLog::stop", "src/trace_log.cc:TraceLog::getBuffer", "src/trace_log.cc:TraceLog::deregisterThread"]}
{"id": "C66", "title": "A trace macro records the event it names", "statement": "A use of a trace macro in an enabled category records exactly one event (two for an asynchronous complete event), and the event exports with the name, category and phase of the macro and exactly its arguments, under their names and with their values; a scoped macro records the values at entry; complete macros record the given start and the time from start to end. In a disabled category nothing is recorded.", "quantifier": "every macro, name, category, argument list, argument type and value, and every time expression", "why_tests_cant": "Tests use each macro with one or two literal arguments; they do not vary the text of an argument expression, which the macros paste unparenthesised.", "anchors": ["include/phosphor/phosphor.h:TRACE_EVENT_START0", "include/phosphor/phosphor.h:TRACE_COMPLETE0", "include/phosphor/phosphor.h:TRACE_ASYNC_COMPLETE2", "include/phosphor/phosphor.h:TRACE_EVENT2", "include/phosphor/phosphor-internal.h:PHOSPHOR_INTERNAL_TRACE_EVENT2", "include/phosphor/phosphor-internal.h:PHOSPHOR_INTERNAL_TRACE_COMPLETE2"]}
{"id": "C67", "title": "Macro arguments are evaluated at most once", "statement": "Every argument expression of a trace macro is evaluated exactly once when its category is enabled and not at all when it is disabled.", "quantifier": "every macro and every argument expression, including those whose evaluation has side effects", "why_tests_cant": "Tests pass constants, for which the number of evaluations is invisible.", "anchors": ["include/phosphor/phosphor-internal.h:PHOSPHOR_INTERNAL_TRACE_EVENT2", "include/phosphor/phosphor.h:TRACE_COMPLETE0", "include/phosphor/phosphor.h:TRACE_ASYNC_COMPLETE2", "include/phosphor/phosphor.h:TRACE_EVENT1"]}
{"id": "C68", "title": "Compiling tracing out keeps the program valid and its locking unchanged", "statement": "With PHOSPHOR_DISABLED every trace macro is still defined with the same number of parameters, and the lock guard macros lock and unlock the mutex exactly as they do with tracing compiled in.", "quantifier": "every macro; every mutex, body and outcome of locking", "why_tests_cant": "The tests are built with tracing compiled in only.", "anchors": ["include/phosphor/phosphor.h:TRACE_FUNCTION1", "include/phosphor/phosphor.h:TRACE_LOCKGUARD"]}
{"id": "C69", "title": "The exported document is the trace", "statement": "For every interleaved execution of the log by any number of threads: a context made of the buffer of a run exports, however it is cut into pieces by read calls or saved to a file, to one JSON document that lists the registered names and, besides them, only objects denoting events that a thread with the id they carry logged in that run. With a fixed buffer that did not run out, the objects of every thread registered throughout denote exactly the events it logged, in order. With a ring and one logging thread the objects denote the last events it logged, each once: all, or at least (N - 1) * capacity + 1. The macros make events the document can represent.", "quantifier": "every execution, every number of threads, every chunk count, every representable event and every sequence of read sizes", "why_tests_cant": "Tests compare one fixed trace against one fixed string; the statement composes the log, the buffers, the context and the exporter over all histories.", "anchors": ["src/trace_log.cc:logEvent", "src/trace_log.cc:getTraceContext", "src/tools/export.cc:JSONExport::read", "src/trace_event.cc:to_json", "include/phosphor/phosphor-internal.h:PHOSPHOR_INTERNAL_TRACE_EVENT2"]}
{"id": "C70", "title": "dyn_array constructs and destroys every element exactly once", "statement": "Every constructor of gsl_p::dyn_array either makes an array of exactly the requested elements, each constructed once in order in fresh memory, or throws after having destroyed what it constructed, exactly once and in reverse order, and released its memory. The destructor destroys every element once in reverse order and releases the memory. A copy has equal contents, own memory, and leaves its source unchanged. Element access, iteration in both directions and fill reach exactly the elements; at throws outside.", "quantifier": "every element type and size, count, value, point of failure of an element constructor or of allocation, and heap", "why_tests_cant": "Tests make small arrays of trivially constructible elements and never let the n-th constructor throw.", "anchors": ["include/gsl_p/dyn_array.h:dyn_array::dyn_array", "include/gsl_p/dyn_array.h:dyn_array::~dyn_array", "include/gsl_p/dyn_array.h:__allocate", "include/gsl_p/dyn_array.h:at", "include/gsl_p/dyn_array.h:fill"]}
{"id": "C71", "title": "A configuration always makes the buffers it reports", "statement": "Whatever a program does with its TraceConfig objects (constructors, setters, copying, updateFromString including calls that throw half way, start-up trace, environment), the factory stored in a configuration makes buffers of the mode the configuration reports; a custom factory is reported as custom. Configurations are values: an operation on one changes no other. The start-up trace is the configuration as it was when it was set, and the environment replaces it exactly when the variable holds a non-empty valid configuration.", "quantifier": "every sequence of operations, every configuration text and every environment", "why_tests_cant": "Tests check single constructions; they do not cover objects left behind by an update that threw half way, or sequences of operations.", "anchors": ["include/phosphor/trace_config.h:TraceConfig", "src/trace_config.cc:TraceConfig::updateFromString", "src/trace_config.cc:TraceConfig::fromString", "src/trace_config.cc:modeToFactory", "src/trace_log.cc:TraceLog::TraceLog"]}
{"id": "C72", "title": "Every thread has its own id", "statement": "The id phosphor records for a thread (cached per thread) is the thread's system id: two live threads never go by the same id, and the id of a thread never changes, in every history of thread creation, thread exit, reuse of ids by the system and fork.", "quantifier": "every history of creation, exit, id reuse and fork, and every interleaving of calls", "why_tests_cant": "Tests ask for the id in one or two threads; id reuse and fork after caching are not exercised.", "anchors": ["include/phosphor/platform/thread.h:getCurrentThreadIDCached", "src/platform/thread.cc:getCurrentThreadID"]}
{"id": "C73", "title": "Relaxed counters count", "statement": "The increments and decrements of a RelaxedAtomic (such as the number of chunks on loan) by any number of threads are never lost under relaxed memory ordering: in one order common to all threads, each returns and adds to the sum of all before it. A counter that starts at zero and is decremented no more often than it was incremented never wraps around. A read returns the value after some first part of the changes, never an older one than the thread has seen, and the exact value if all changes are the thread's own or happened before the read.", "quantifier": "every number of threads, every execution and every choice of what relaxed reads return", "why_tests_cant": "Tests on strongly ordered hardware do not show the reads relaxed ordering allows, and check few interleavings.", "anchors": ["include/phosphor/relaxed_atomic.h:RelaxedAtomic", "src/trace_buffer.cc:FixedTraceBuffer::getChunk", "src/trace_buffer.cc:FixedTraceBuffer::returnChunk", "src/trace_buffer.cc:FixedTraceBuffer::getStats", "src/trace_buffer.cc:RingTraceBuffer::returnChunk"]}
{"id": "C74", "title": "Logging is wait free", "statement": "A call of logEvent ends after at most seventeen steps of its own, whatever other threads do meanwhile, in fixed mode and in ring mode with a chunk for each registered thread: it has returned, or it has taken the mutex to stop the run because the buffer is full. A thread in logEvent can always make its next step: it never waits for the mutex, never waits for a thread to release a chunk lock, and never runs into undefined behaviour.", "quantifier": "every reachable state, every number of threads and every interleaving", "why_tests_cant": "A bound on one thread's steps holds against every schedule of all others; a stress test cannot tell a call that is slow from one that a schedule could hold up for ever.", "anchors": ["include/phosphor/trace_log.h:logEvent", "src/trace_log.cc:TraceLog::getChunkTenant", "src/trace_log.cc:TraceLog::maybe_stop", "src/trace_log.cc:TraceLog::replaceChunk", "src/chunk_lock.cc:ChunkLock::try_lock"]}
{"id": "C75", "title": "The return queue is lock free", "statement": "A call of mpmc_bounded_queue::enqueue (dequeue) makes at most four accesses to shared memory after its first, two more for each position another thread claims for enqueuing (dequeuing) in the meantime, and two more for each spurious failure of its compare-exchange; a thread that stands still anywhere cannot delay it. Among m threads, however they are scheduled, some call returns within m(6+2m) steps, spurious failures apart. A single call has no bound of its own: another thread can overtake it any number of times.", "quantifier": "every capacity 2^k with k at least 1, every number of threads and every interleaving", "why_tests_cant": "Lock freedom is about the worst schedule, including threads that are never scheduled again; a stress test samples schedules the system happens to produce.", "anchors": ["thirdparty/dvyukov/include/dvyukov/mpmc_bounded_queue.h:mpmc_bounded_queue::enqueue", "thirdparty/dvyukov/include/dvyukov/mpmc_bounded_queue.h:mpmc_bounded_queue::dequeue"]}
{"id": "C76", "title": "A shared ring has no gaps", "statement": "At every moment of every execution in which any number of threads log, register, deregister, start, stop and retrieve, a ring buffer holds for each thread the most recent events it stored there: what has been overwritten is an initial part of them, never something in between, and nothing is overwritten before every chunk has been handed out. During a run that is not stopped these are the last events the thread passed to logEvent. If only the threads in T log and nobody deregisters, then once something has been overwritten the buffer holds at least N-|T| chunks full of events.", "quantifier": "every reachable state, every number of threads and chunks, every interleaving and every number of events (distinct thread ids)", "why_tests_cant": "Whether a gap appears depends on the order in which the threads return and take chunks over arbitrarily many rounds; a test sees a few rounds of one schedule.", "anchors": ["src/trace_buffer.cc:RingTraceBuffer::getChunk", "src/trace_buffer.cc:RingTraceBuffer::returnChunk", "src/trace_log.cc:TraceLog::replaceChunk", "src/trace_log.cc:TraceLog::getChunkTenant", "src/trace_log.cc:TraceLog::deregisterThread"]}
{"id": "C77", "title": "Iterating over a buffer refers to chunks that exist", "statement": "Iterating over the events of a trace buffer, from begin() to end(), and over its chunks, never names a chunk outside the buffer's array, also in an expression that only takes an address, and visits exactly the stored events, whatever the buffer's size and however full it is.", "quantifier": "every buffer, size and filling", "why_tests_cant": "The expressions concerned do nothing visible when compiled, so no test fails; sanitizers do not see a reference formed one past a heap array. Sizes beyond 2^31 chunks cannot be allocated in a test.", "anchors": ["include/gsl_p/iterator.h:multidimensional_iterator", "src/trace_buffer.cc:TraceBuffer::chunk_iterator", "src/trace_buffer.cc:FixedTraceBuffer::operator[]", "include/gsl_p/dyn_array.h:dyn_array::operator[]"]}
{"id": "C78", "title": "Errors go to the caller that starts or stops tracing", "statement": "An error while saving a finished trace or creating a buffer is reported to the code that started or stopped tracing, never to traced code and never by terminating the process, does not lose the trace, and leaves the log usable: its mutex free, tracing either fully on or fully off, and a following start works.", "quantifier": "every history of calls of one thread, every stopped callback, buffer factory, and file system behaviour", "why_tests_cant": "Failing callbacks, allocations and writes can occur at any point of any history and combine; a test provokes a few.", "anchors": ["src/trace_log.cc:TraceLog::start", "src/trace_log.cc:TraceLog::stop", "src/trace_log.cc:TraceLog::maybe_stop", "src/trace_log.cc:TraceLog::~TraceLog", "include/phosphor/trace_log.h:TraceLog::logEvent", "src/trace_config.cc:TraceConfig::setStoppedCallback", "include/phosphor/scoped_event_guard.h:ScopedEventGuard::~ScopedEventGuard"]}
{"id": "C79", "title": "Contexts own their buffer exactly once", "statement": "Whatever sequence of constructions, moves, move assignments, self assignments and destructions a program performs on trace contexts, every buffer has exactly one owner or was destroyed exactly once. A move carries buffer and thread names together; addThreadName never replaces a name. An exporter of a context may be read as long as that context is neither moved from, moved into nor destroyed.", "quantifier": "every program over any number of contexts and pointers", "why_tests_cant": "The number of sequences of moves is unbounded; leaks and double deletes show only in particular ones.", "anchors": ["src/trace_context.cc:TraceContext", "include/phosphor/trace_context.h:TraceContext::getBuffer", "include/phosphor/trace_context.h:TraceContext::addThreadName", "src/tools/export.cc:JSONExport::JSONExport"]}
{"id": "C80", "title": "Only events of enabled categories are recorded", "statement": "A trace buffer contains only events of categories that the configuration of the run it belongs to enables, however trace points, registrations of categories, and starts and stops of tracing by other threads are interleaved.", "quantifier": "every number of threads, every interleaving of trace points, category lookups, start, stop and logging", "why_tests_cant": "An event may be decided in one run and logged in another; which interleavings allow that, and that all others do not, cannot be sampled.", "anchors": ["src/trace_log.cc:TraceLog::start", "src/trace_log.cc:TraceLog::stop", "src/category_registry.cc:CategoryRegistry::updateEnabled", "src/category_registry.cc:CategoryRegistry::getStatus", "include/phosphor/phosphor-internal.h:PHOSPHOR_INTERNAL_TRACE_EVENT", "include/phosphor/scoped_event_guard.h:ScopedEventGuard"]}
{"id": "C81", "title": "A thread that ends leaves nothing behind", "statement": "Threads may end at any time outside of calls of the log: afterwards nothing accesses the thread-local storage of a thread that has ended, so that starting, stopping and logging stay defined.", "quantifier": "every number of threads, every interleaving of calls of the log with threads ending, every buffer kind", "why_tests_cant": "An access to the storage of a thread that has ended usually goes unnoticed, and depends on which threads registered, ended and stop tracing in what order.", "anchors": ["src/trace_log.cc:thread_chunk", "src/trace_log.cc:TraceLog::registerThread", "src/trace_log.cc:TraceLog::deregisterThread", "src/trace_log.cc:TraceLog::evictThreads", "include/phosphor/trace_log.h:registered_chunk_tenants"]}
{"id": "C82", "title": "The trace of nested code is its call tree", "statement": "However a thread goes through nested traced scopes and lock guards, left normally or by exceptions, with categories enabled and disabled in between, it logs exactly one Complete event per scope that was enabled on entry (wait and held, or neither, per lock), nested in time as the scopes are; with a clock that never shows the same time twice the events, in whatever order, determine the tree of scopes. Mutexes of lock guards are unlocked exactly once, in reverse order.", "quantifier": "every finite execution of nested scopes, lock guards, throws and handlers, every clock that does not go back, every sequence of category statuses and lock failures", "why_tests_cant": "Tests nest a few scopes and leave them in one way; the combinations of nesting, exceptions, handlers and categories that change in between are unbounded.", "anchors": ["include/phosphor/scoped_event_guard.h:ScopedEventGuard", "include/phosphor/scoped_event_guard.h:MutexEventGuard", "include/phosphor/phosphor.h:TRACE_EVENT2", "include/phosphor/phosphor.h:TRACE_LOCKGUARD_TIMED"]}
{"id": "C83", "title": "Tracing does not change the program", "statement": "A program with traced scopes and lock guards does the same actions and the same operations on its mutexes, in the same order, and ends normally or by an exception in the same cases, whatever categories are enabled at whatever times, and also when compiled with PHOSPHOR_DISABLED.", "quantifier": "every finite execution of nested scopes, lock guards, throws and handlers, every sequence of category statuses, lock failures and clock readings in the range of steady_clock", "why_tests_cant": "It compares every program with its untraced variant, for every schedule of enabling and disabling; tests compare none.", "anchors": ["include/phosphor/scoped_event_guard.h:ScopedEventGuard", "include/phosphor/scoped_event_guard.h:MutexEventGuard", "include/phosphor/phosphor.h:TRACE_LOCKGUARD", "include/phosphor/phosphor.h:PHOSPHOR_DISABLED"]}
{"id": "C84", "title": "The return queue with positions that wrap around", "statement": "With positions and sequence numbers of the width of size_t the queue never runs into undefined behaviour and keeps its guarantees: first in first out, every item taken once, at most its capacity of items, no item overwritten or raced on, enqueue gives up only when full and dequeue only when empty.", "quantifier": "every word width, every capacity 2^k up to a quarter of the range of a word, any number of threads, every interleaving, any number of items", "why_tests_cant": "Positions wrap around after 2^64 operations; no test gets there.", "anchors": ["thirdparty/dvyukov/include/dvyukov/mpmc_bounded_queue.h:enqueue", "thirdparty/dvyukov/include/dvyukov/mpmc_bounded_queue.h:dequeue"]}
{"id": "C85", "title": "From trace points to the trace", "statement": "Over any execution, every recorded event comes from one passage of a trace point that found its category enabled, and no passage is recorded twice, in one buffer or in several. While a run goes on, with the thread registered and nobody refused a chunk, every such passage is in the trace exactly once.", "quantifier": "every number of threads, trace points and runs, every configuration, every interleaving of trace points, registry updates and the log", "why_tests_cant": "Tests count events of a few fixed programs; losses and duplicates depend on the interleaving of trace points with starting, stopping, chunk replacement and eviction.", "anchors": ["include/phosphor/trace_log.h:logEvent", "include/phosphor/phosphor-internal.h:PHOSPHOR_INTERNAL_INITIALIZE_TRACEPOINT", "include/phosphor/scoped_event_guard.h:ScopedEventGuard"]}
{"id": "C86", "title": "Trace points under the lock of the log", "statement": "A thread may pass trace points while it holds the lock of the log: nothing undefined happens, tracing is not stopped, no buffer is replaced, and the lock is kept.", "quantifier": "every number of threads, every configuration, every code under the lock, every interleaving", "why_tests_cant": "Trying to lock a std::mutex one owns is undefined but usually just fails, so a test (nonBlockingStop does it) passes; whether it happens depends on the fill of the buffer at that moment.", "anchors": ["src/trace_log.cc:TraceLog::maybe_stop", "include/phosphor/trace_log.h:TraceLog::lock", "tests/module/trace_log_test.cc:nonBlockingStop"]}
{"id": "C87", "title": "Registry calls and trace points finish", "statement": "Whatever the other threads do, a call of getStatus, a configuration update or a trace point takes a bounded number of steps of its thread, and no thread is ever stuck in one: it can go on, or it waits for the registry mutex and the thread that has it can go on, so the call can always be finished by the two of them.", "quantifier": "every number of threads, every reachable state of the registry with its memory orders, every interleaving, every stale value read", "why_tests_cant": "Deadlock and livelock show only in particular interleavings and with particular stale values; a bound for all of them cannot be sampled.", "anchors": ["src/category_registry.cc:CategoryRegistry::getStatus", "src/category_registry.cc:CategoryRegistry::updateEnabled", "include/phosphor/phosphor-internal.h:PHOSPHOR_INTERNAL_INITIALIZE_CATEGORY_ENABLED"]}
{"id": "C88", "title": "The memory orders cost no execution", "statement": "The memory orders the source gives its atomic operations exclude no execution: whatever state an interleaving of the return queue, the chunk lock, or the registry and the trace points reaches is reached with those orders too. However stale the values a thread has seen, it can see the latest status of a category, finish its call on the queue alone in at most six steps, and get the chunk lock as soon as its holder has released it.", "quantifier": "every number of threads, every reachable state of the models with and without memory orders, every capacity of the queue 2^k with k at least 1", "why_tests_cant": "A model with memory orders that silently excluded executions would make every theorem about it weaker than it reads; and whether a thread with stale values can go on depends on messages no test controls.", "anchors": ["thirdparty/dvyukov/include/dvyukov/mpmc_bounded_queue.h:enqueue", "src/chunk_lock.cc:ChunkLock::tryLockSlave", "src/category_registry.cc:CategoryRegistry::getStatus"]}
{"id": "C89", "title": "The document of a program", "statement": "For a whole program - trace points, categories, configurations, starting and stopping, any threads - a context made of any buffer exports to one JSON document whose objects of a thread denote events of passages of that thread through trace points whose category was enabled, none more often than there were passages. For a run in which nobody was refused a chunk, the objects of a thread registered throughout are exactly its passages of enabled trace points, each once; only a ring of which every chunk has been handed out may lack those it stored first.", "quantifier": "every number of threads and trace points, every configuration, every interleaving, every event the trace points make that JSON can represent, every division of the export into pieces", "why_tests_cant": "The path from a macro to the exported text goes through the registry, the log, the buffers and the exporter; tests exercise each alone or a few fixed programs.", "anchors": ["include/phosphor/phosphor-internal.h:PHOSPHOR_INTERNAL_TRACE_EVENT2", "include/phosphor/trace_log.h:logEvent", "src/tools/export.cc:JSONExport::read"]}
{"id": "C90", "title": "Reading goes on after an exception", "statement": "If a read of an exporter throws - memory runs out, or the text of an item cannot be made - then the bytes written up to then are the next bytes of the document, nothing is undefined, and further reads return the rest of the document.", "quantifier": "every trace, every division into reads, every round of every read in which one of the three places that can throw does so", "why_tests_cant": "Exceptions inside to_json or in appending to the cache need allocation failures or broken events at one exact item; the tests inject none.", "anchors": ["src/tools/export.cc:JSONExport::read", "src/trace_event.cc:to_json"]}
{"id": "C91", "title": "Errors in formatting are reported", "statement": "format_string returns the whole text its format expands to or throws, also when vsnprintf fails or the arguments change between its two passes; the texts of an event whose type or argument type is not an enumerator are refused with std::invalid_argument.", "quantifier": "every text, every failure of either call of vsnprintf, every value of the characters underlying the enumerations", "why_tests_cant": "vsnprintf does not fail and arguments do not change in tests; values that are not enumerators are not constructed.", "anchors": ["src/utils/string_utils.cc:format_string", "src/trace_event.cc:typeToJSON", "src/trace_event.cc:typeToString", "include/phosphor/trace_argument.h:to_string"]}
{"id": "C92", "title": "What a user's buffer may rely on", "statement": "A buffer made by the user's factory is only called as the interface intends: no function of it begins, and no event is put into a chunk of it, after it was handed out or destroyed, and neither happens while a thread is inside one of its functions; a thread asks for a chunk only when it has none of this buffer; it gives back, and writes to, only a chunk it got from this very buffer and did not give back, and never more events than fit.", "quantifier": "every interleaving of any number of threads logging, registering, deregistering, starting, stopping, asking for statistics and taking the buffer out; every buffer, i.e. every answer of getChunk at any time", "why_tests_cant": "The tests use the two buffers of the library and one mock; the calls of a buffer that blocks or answers late, while tracing is stopped or restarted, depend on the schedule.", "anchors": ["src/trace_log.cc:TraceLog::replaceChunk", "src/trace_log.cc:TraceLog::deregisterThread", "src/trace_log.cc:TraceLog::start", "include/phosphor/trace_buffer.h:TraceBuffer", "include/phosphor/trace_config.h:trace_buffer_factory"]}
{"id": "C93", "title": "The memory of the tracer", "statement": "For logs of 1 MB and more, the tracer never takes more than 110% of the configured size; after stop() and getBuffer(), and before the first start(), it takes less than 100 KB (requirements M.7 to M.10).", "quantifier": "every sequence of start, stop, getBuffer, registerThread and deregisterThread with any sizes and modes, every moment within the calls, every pattern of failing allocations", "why_tests_cant": "The tests check one buffer size and never look at the memory in use within start(); the requirement is about all sizes and all moments.", "anchors": ["docs/design/Requirements.md:M.7", "docs/design/Requirements.md:M.8", "docs/design/Requirements.md:M.9", "docs/design/Requirements.md:M.10", "src/trace_log.cc:TraceLog::start", "src/trace_log.cc:TraceLog::getBuffer", "src/trace_buffer.cc:RingTraceBuffer", "include/gsl_p/dyn_array.h:dyn_array::__allocate"]}
{"id": "C94", "title": "Starts and ends match up when nested", "statement": "When a thread nests pairs of start and end events, a viewer that ends with every end event the latest start of the same thread not ended yet finds in the trace the pairs of the program: for the events of a thread in a fixed buffer, in the exported document, and in a ring put into the order of the times, it pairs exactly those starts and ends that belong together in the program and are both in the buffer, however many events before or after were lost and whichever categories are disabled.", "quantifier": "every sequence of events and every depth, every number of threads, every interleaving of logging, starting, stopping and retrieving with any sizes, every set of enabled categories", "why_tests_cant": "One lost event in the middle of a thread's events would shift every pair after it; whether events can be lost only at the ends depends on all interleavings of full buffers, stop and start with logging.", "anchors": ["docs/design/Instrumentation-API.md:74-76", "include/phosphor/phosphor.h:TRACE_EVENT_START", "include/phosphor/phosphor.h:TRACE_EVENT_END", "src/trace_log.cc:TraceLog::logEvent", "src/trace_log.cc:TraceLog::replaceChunk", "src/tools/export.cc:JSONExport::read"]}
{"id": "C95", "title": "Times of events lie within the run that recorded them", "statement": "The events a thread has in the buffer of a run were constructed in the order they have there, none before the run began, none after the stop that ended the run had evicted the threads, and all before a later run began; so the time and the duration an event bears lie within the run whose buffer it is in, and the times of two runs do not overlap.", "quantifier": "every number of threads, every interleaving of logging with any events, registering, starting, stopping and retrieving in any configuration, and any passing of time in between", "why_tests_cant": "An event constructed before its thread has a chunk of the run, or stored by a thread that was not evicted, bears a time outside the run only in rare interleavings of a stop and a start with a thread between two of its instructions.", "anchors": ["src/trace_log.cc:TraceLog::logEvent", "src/trace_log.cc:TraceLog::stop", "src/trace_log.cc:TraceLog::evictThreads", "src/trace_event.cc:TraceEvent::TraceEvent", "include/phosphor/scoped_event_guard.h:~ScopedEventGuard"]}
{"id": "C96", "title": "Logging is linearizable", "statement": "Whatever the threads do, the log cannot be told apart, by the order of calls and returns of logEvent and of the starts, stops, retrievals and registrations and by the contents of the buffers, from a recorder whose calls each take effect at one moment between the call and the return: at that moment tracing is on, the thread is registered and the event is appended to what the thread has in the current run, or the event is not recorded and tracing is off, the thread is not registered, or the run is one in fixed mode. The calls of a thread take effect in the order it makes them, each exactly once, and none that has returned is still to take effect.", "quantifier": "every number of threads, every interleaving of logging any events, registering, deregistering, starting, stopping, retrieving and freeing buffers", "why_tests_cant": "A test compares the outcome of a schedule with a few expected outcomes; that every outcome of every schedule is one of an atomic recorder is a statement about all interleavings, among them those in which a thread stores its event after the stop has cleared the flag.", "anchors": ["include/phosphor/trace_log.h:TraceLog::logEvent", "src/trace_log.cc:TraceLog::getChunkTenant", "src/trace_log.cc:TraceLog::replaceChunk", "src/trace_log.cc:TraceLog::stop", "src/trace_log.cc:TraceLog::evictThreads"]}
{"id": "C97", "title": "A buffer of enough chunks loses nothing", "statement": "A run, in fixed or in ring mode, whose buffer has at least one chunk for every hundred events of each thread, rounded up per thread, records every event of every registered thread: while nobody deregisters or stops tracing, tracing stays on, no thread is refused a chunk or waits for one, and the buffer holds of each thread exactly what it logged, in order. When a fixed buffer of N chunks used by n threads has refused a thread or ended the run, it holds at least N + 1 - n chunks full of events, however the events are spread over the threads. Neither bound can be improved.", "quantifier": "every number of threads, every configuration, every number of events per thread, every interleaving with other threads doing anything but deregistering, starting and stopping", "why_tests_cant": "Whether a thread finds a chunk depends on how many partly filled chunks the others hold at that moment, which differs from schedule to schedule; a test tries a few sizes with one or two threads.", "anchors": ["src/trace_buffer.cc:FixedTraceBuffer::getChunk", "src/trace_log.cc:TraceLog::getChunkTenant", "src/trace_log.cc:TraceLog::replaceChunk", "include/phosphor/trace_log.h:TraceLog::logEvent", "src/trace_log.cc:TraceLog::maybe_stop"]}
{"id": "C98", "title": "The ring buffer keeps its promises over its lock-free queue", "statement": "A ring buffer of at least one and at most 2^32 chunks whose return queue is the real lock-free queue, accessed by any number of threads with their accesses to shared memory interleaved in any way, behaves like one whose queue operations are atomic: no chunk is with two threads, a chunk with a thread is not in the queue and carries the thread's id, no missing pointer and no index out of range is ever used, and getChunk and returnChunk find the queue empty or full only if all chunks are with threads or another thread is in the middle of an operation on the very slot. Neither call can be deadlocked: with a few steps of one other thread it gets through. on_loan is exact between calls. A thread that stands still inside the buffer holds up no other thread.", "quantifier": "every number of chunks from 1 to 2^32, any number of threads, every interleaving of single accesses to shared memory, with spurious failures of compare-exchange", "why_tests_cant": "The states that matter last for a few instructions in the middle of a queue operation; the library's tests return and get chunks from one thread or with a sleep in between.", "anchors": ["src/trace_buffer.cc:RingTraceBuffer::getChunk", "src/trace_buffer.cc:RingTraceBuffer::returnChunk", "thirdparty/dvyukov/include/dvyukov/mpmc_bounded_queue.h:enqueue", "thirdparty/dvyukov/include/dvyukov/mpmc_bounded_queue.h:dequeue"]}
{"id": "C99", "title": "The ring buffer has no livelock", "statement": "In every endless execution of a ring buffer over its lock-free queue under a fair scheduler: as long as some thread is in getChunk or returnChunk, some call returns again, or else from some time on every chunk is held for good by a thread that does not return it. If no new calls begin, all calls return, with the same exception.", "quantifier": "every number of chunks from 1 to 2^32, any number of threads, every endless interleaving of single accesses to shared memory in which a thread in a call goes on again and again and does not fail spuriously for ever", "why_tests_cant": "A livelock is an endless execution; a test sees only that a call took long, and only for schedules it happens to get.", "anchors": ["src/trace_buffer.cc:RingTraceBuffer::getChunk", "src/trace_buffer.cc:RingTraceBuffer::returnChunk", "thirdparty/dvyukov/include/dvyukov/mpmc_bounded_queue.h:enqueue", "thirdparty/dvyukov/include/dvyukov/mpmc_bounded_queue.h:dequeue"]}
{"id": "C100", "title": "The trace log over the code of its built-in buffers", "statement": "With getChunk and returnChunk opened up into their single accesses to shared memory: the log calls its fixed or ring buffer only as the buffer allows, and the buffer answers only as the log expects, so nothing is undefined and no call is refused; the chunk a thread stores an event into belongs to the log's current buffer, carries that thread's id, has room, and no other thread can still write to it; getChunk answers null only for a fixed buffer whose chunks have all been issued.", "quantifier": "any number of threads, buffers of 1 to 2^32 chunks of both kinds, every interleaving of the steps of the log and of single accesses to shared memory inside the buffers", "why_tests_cant": "Log and buffer meet in interleavings of accesses of several threads inside two components; unit tests exercise each of them alone or in the schedules they happen to get.", "anchors": ["src/trace_log.cc:TraceLog::replaceChunk", "src/trace_log.cc:TraceLog::start", "include/phosphor/trace_log.h:TraceLog::logEvent", "src/trace_buffer.cc:FixedTraceBuffer::getChunk", "src/trace_buffer.cc:FixedTraceBuffer::returnChunk", "src/trace_buffer.cc:RingTraceBuffer::getChunk", "src/trace_buffer.cc:RingTraceBuffer::returnChunk"]}
{"id": "C101", "title": "Progress of the trace log over the code of its built-in buffers", "statement": "Counting single accesses to shared memory, under a scheduler that lets every thread that can go on go on: a call of the fixed buffer returns after at most three accesses of its thread; the ring has no livelock, so that as long as threads are in getChunk or returnChunk some call returns, unless every chunk stays held; and a stop() that is emptying the threads' chunks comes to its end over a fixed buffer, and over a ring with at least one chunk per registered thread. With fewer chunks it may never end.", "quantifier": "any number of threads, buffers of 1 to 2^32 chunks of both kinds, every endless fair interleaving of the steps of the log and of single accesses to shared memory inside the buffers, whatever the threads go on to do", "why_tests_cant": "A statement about endless executions and all fair schedules; a test sees one finite schedule and a time-out.", "anchors": ["src/trace_log.cc:TraceLog::evictThreads", "src/trace_log.cc:TraceLog::stop", "src/trace_log.cc:TraceLog::replaceChunk", "src/trace_buffer.cc:FixedTraceBuffer::getChunk", "src/trace_buffer.cc:RingTraceBuffer::getChunk", "src/trace_buffer.cc:RingTraceBuffer::returnChunk"]}
{"id": "C102", "title": "Opening up getChunk and returnChunk changes nothing the log shows", "statement": "Every execution of the trace log in which getChunk and returnChunk of its built-in buffers run access by access corresponds to one in which they are single steps: threads begin the same functions in the same order, store the same events in the same buffers, and configuration, registration, names, history, contexts and chunks held agree. Hence also access by access: while tracing is on, a registered thread's events are stored all and in order unless a fixed buffer ran out of chunks; nothing is invented, repeated or reordered; chunks hold consecutive events of one thread; a fixed buffer never takes more events than its chunks hold; stops, callbacks and retrievals keep their order, and a full buffer stops only its own run.", "quantifier": "any number of threads, any sequence of starts with fixed or ring buffers of 1 to 2^32 chunks, every interleaving of the steps of the log and of single accesses to shared memory inside the buffers", "why_tests_cant": "A correspondence between all executions of two levels of detail; a test runs one schedule of the compiled code and cannot choose where inside getChunk a thread is interrupted.", "anchors": ["src/trace_log.cc:TraceLog::replaceChunk", "src/trace_log.cc:TraceLog::deregisterThread", "src/trace_log.cc:TraceLog::logEvent", "src/trace_buffer.cc:FixedTraceBuffer::getChunk", "src/trace_buffer.cc:RingTraceBuffer::getChunk", "src/trace_buffer.cc:RingTraceBuffer::returnChunk"]}
{"id": "C103", "title": "Tracing ends with the event each thread is on", "statement": "From the moment tracing is turned off until the next run begins, a thread whose call of logEvent had not yet found tracing on stores nothing, and a thread whose call had stores at most the event of that call, once, in the buffer of the run being stopped, and only while the stop is still waiting for it. Once the stop is over no thread has a chunk and no buffer changes in any way, whatever calls were in flight. The same holds access by access over the code of the built-in buffers.", "quantifier": "any number of threads, every reachable state in which tracing is off, every interleaving of further steps in which no run begins", "why_tests_cant": "The documented promise is about every thread that may be at any instruction of logEvent when the flag changes; a test cannot stop a thread there and cannot see that nothing will be written later.", "anchors": ["include/phosphor/trace_log.h:TraceLog::enabled", "include/phosphor/trace_log.h:TraceLog::evictThreads", "src/trace_log.cc:TraceLog::stop", "src/trace_log.cc:TraceLog::logEvent", "src/trace_log.cc:TraceLog::getChunkTenant", "src/trace_log.cc:TraceLog::evictThreads"]}
{"id": "C104", "title": "A stop is final under the memory orders of the source", "statement": "Under the memory orders of the source, where a thread may read an old value of enabled after it has been cleared: the stopped callback, and any later code that runs under the mutex while tracing is off, knows every event stored in the buffer. Once tracing is off and every thread has been evicted, no thread has a chunk or is about to take, reset or write one, even if it still reads that tracing is on, and no thread writes to a buffer until a start turns tracing on again or the buffer is destroyed.", "quantifier": "any number of threads, every execution of the release/acquire memory, every choice of the values the loads return, provided a stopped callback run by start does not itself start tracing", "why_tests_cant": "A late read of an old flag happens on some processors and under some schedules only; a test on one machine cannot show that it is harmless on all.", "anchors": ["src/trace_log.cc:TraceLog::stop", "src/trace_log.cc:TraceLog::evictThreads", "src/trace_log.cc:TraceLog::getChunkTenant", "src/trace_log.cc:TraceLog::replaceChunk", "include/phosphor/trace_log.h:TraceLog::enabled", "include/phosphor/chunk_lock.h:ChunkLock"]}
{"id": "C105", "title": "What the chunks hold under the memory orders of the source", "statement": "Under the memory orders of the source: an event is stored only in a chunk that the storing thread has itself emptied and that no thread has emptied since; all events a chunk holds are of the one thread that emptied it last, and are a block of consecutive events of that thread; a buffer that is no longer the log's (it was taken, or destroyed) is never changed again, whatever value of enabled a thread still reads; and a chunk of a fixed buffer is emptied at most once and holds every event ever stored in it.", "quantifier": "any number of threads and of starts and stops, every execution of the release/acquire memory and every choice of the values the loads return", "why_tests_cant": "Whether one thread empties or writes a chunk that another still has depends on the schedule and on how late the processors see each other's stores.", "anchors": ["src/trace_log.cc:TraceLog::replaceChunk", "src/trace_log.cc:TraceLog::getChunkTenant", "src/trace_log.cc:TraceLog::logEvent", "src/trace_buffer.cc:TraceChunk::reset", "src/trace_buffer.cc:TraceChunk::addEvent", "src/trace_buffer.cc:FixedTraceBuffer::getChunk"]}
{"id": "C106", "title": "Progress of the trace log under the memory orders of the source", "statement": "Under the memory orders of the source, where a load may return an old value: a thread in any call of the log can always go on, except in the loop of getChunk of a ring that has handed out all its chunks and has none back, and except that the eviction in stop waits while every thread left to evict is in a logging call and has its chunk lock. A logging call is over after at most thirteen moves of its thread. If a ring has at least as many chunks as threads are registered its getChunk never runs out, also not while threads are being evicted, so a logging call never waits and stop waits only for logging calls that can go on; from every state the stop can be brought to its end by the thread that stops and by the threads finishing the calls they are in. With fewer chunks than threads the loop of getChunk does run without a chunk to take.", "quantifier": "any number of threads, every execution of the release/acquire memory and every choice of the values the loads return; for the ring, every number n of threads and rings of at least n chunks", "why_tests_cant": "A wait that depends on which old value a processor returns, or on an eviction in the middle of a call, does not show up in a test that happens not to hit it.", "anchors": ["src/trace_log.cc:TraceLog::getChunkTenant", "src/trace_log.cc:TraceLog::replaceChunk", "src/trace_log.cc:TraceLog::evictThreads", "src/trace_log.cc:TraceLog::stop", "src/trace_buffer.cc:RingTraceBuffer::getChunk", "include/phosphor/trace_log.h:TraceLog::logEvent"]}
{"id": "C107", "title": "When a start or a stop takes effect, under the memory orders of the source", "statement": "Under the memory orders of the source: a thread that knows of a start reads, as long as tracing stays on, that tracing is on, so it does not drop an event because of an old value of enabled; a thread that knows of a stop reads that tracing is off until it is started again. A thread knows if it has the mutex of the log, which includes the thread that makes the call and every thread that registers or calls the log later, and if it reads, in any other atomic variable, a value stored by a thread that knows. A thread that does not know may still read the old value, after a start as well as after a stop.", "quantifier": "any number of threads, every execution of the release/acquire memory, every choice of the values the loads return", "why_tests_cant": "A test that starts tracing and logs on another thread passes on a machine that shows new values soon, whether or not the program makes the thread know.", "anchors": ["src/trace_log.cc:TraceLog::start", "src/trace_log.cc:TraceLog::stop", "include/phosphor/trace_log.h:TraceLog::enabled", "include/phosphor/trace_log.h:TraceLog::logEvent", "src/trace_log.cc:TraceLog::registerThread"]}
{"id": "C108", "title": "Registration, handed out buffers and sufficient buffers over the code of the built-in buffers", "statement": "In the log whose getChunk, returnChunk and deregisterThread are sequences of accesses to shared memory: while nobody is inside of deregisterThread, the registered threads are those whose last successful call was registerThread, and the names are what the history of registrations and runs says; when a buffer is in the user's hands no thread is inside of one of its functions, has a pointer to it or one of its chunks, and from then on nothing any thread does changes its counters, its queue or its chunks' owners or stores an event in it; if a run begins with room for the events that the threads log, no thread is refused a chunk and every registered thread stores exactly what it logs, in order.", "quantifier": "any number of threads, every interleaving of the accesses inside the functions of the buffers, both built-in buffers, any sizes and configurations, spurious failures", "why_tests_cant": "The moments inside of getChunk or returnChunk at which another thread stops, takes the buffer or starts again are too short for a test to hit.", "anchors": ["src/trace_log.cc:TraceLog::registerThread", "src/trace_log.cc:TraceLog::deregisterThread", "src/trace_log.cc:TraceLog::getBuffer", "src/trace_buffer.cc:FixedTraceBuffer::getChunk", "src/trace_buffer.cc:RingTraceBuffer::getChunk", "src/trace_buffer.cc:RingTraceBuffer::returnChunk"]}
{"id": "C109", "title": "Every stop comes to its end in a fair execution, under the memory orders of the source", "statement": "In an execution without end in which a thread that can always go on with a logging call or an eviction does go on, and rings have at least as many chunks as threads are registered: every logging call ends. If moreover a store to enabled is in the end read by every thread, then once tracing is off and stays off each thread in the end logs no more, and every eviction in stop or in a restarting start ends, with tracing off and no thread left to evict when the stopped callback is next. Without that condition on the stores a stop may go on for ever: a thread keeps reading the old value and taking its chunk lock.", "quantifier": "all infinite executions of the release/acquire model that are fair, any number of threads and calls, buffers of both kinds", "why_tests_cant": "A test sees finite executions on one machine; a stop that starves needs a thread that keeps reading an old value and a lock that is free only between the attempts of the evicting thread.", "anchors": ["src/trace_log.cc:TraceLog::stop", "src/trace_log.cc:TraceLog::evictThreads", "src/trace_log.cc:TraceLog::logEvent", "src/trace_log.cc:TraceLog::getChunkTenant", "src/chunk_lock.cc:ChunkLock::lockMaster"]}
{"id": "C110", "title": "The trace log keeps its safety when the chunk locks are the atomic words of the code", "statement": "With each chunk lock an atomic word in the same memory as enabled, taken by compare-exchanges that may read an old value when they fail and released by stores, or in a debug build by compare-exchanges: every execution is one of the trace log with locks as objects, and the word that is newest is Unlocked exactly when the lock object is free. So there is no data race and no access to a destroyed buffer; two threads never write to one chunk; once a stop is over no thread has a chunk or is about to use the buffer, and the thread with the mutex knows every event stored; while a thread has its chunk lock no other thread evicts it. The assertions in the unlocks of a debug build hold. And a thread in any call can go on, except one in the loop of a ring with no chunk and one that waits to evict threads that all have their chunk lock.", "quantifier": "all executions of any length of the release/acquire model, any number of threads and calls, every choice of the values that failing compare-exchanges read", "why_tests_cant": "The orderings that a wrong memory order on the lock word would allow do not occur on the machines tests run on, and need an exact interleaving of a logging call and an eviction.", "anchors": ["src/chunk_lock.cc:ChunkLock::tryLockSlave", "src/chunk_lock.cc:ChunkLock::unlockSlave", "src/chunk_lock.cc:ChunkLock::lockMaster", "src/chunk_lock.cc:ChunkLock::unlockMaster", "src/trace_log.cc:TraceLog::evictThreads", "src/trace_log.cc:TraceLog::getChunkTenant"]}
{"id": "C111", "title": "Events stay where they were stored, and starts and stops take effect, with chunk locks that are the atomic words of the code", "statement": "With each chunk lock an atomic word in the same memory as enabled: an event is stored only in a chunk that its thread emptied and nobody has emptied since; the events of a chunk are a block of the events of one thread; a chunk of a buffer that is not a ring is emptied at most once and holds every event ever stored in it; a buffer that the log has given away or replaced changes no more. After a stop has evicted every thread no thread writes to a buffer until the next start; tracing comes on only by a start of the thread with the mutex; the thread with the mutex knows the newest value of enabled; a thread that knows of a start or a stop reads it as long as it holds.", "quantifier": "all executions of any length of the release/acquire model with lock words, any number of threads and calls, every value that a failing compare-exchange may read", "why_tests_cant": "A lost or misplaced event needs a stale lock word in one thread during an eviction by another, which hardware tests do not produce.", "anchors": ["src/chunk_lock.cc:ChunkLock::tryLockSlave", "src/chunk_lock.cc:ChunkLock::lockMaster", "src/trace_log.cc:TraceLog::getChunkTenant", "src/trace_log.cc:TraceLog::replaceChunk", "src/trace_log.cc:TraceLog::evictThreads", "src/trace_buffer.cc:TraceChunk::addEvent"]}
{"id": "C112", "title": "Logging calls and evictions come to an end with chunk locks that are the atomic words of the code", "statement": "With each chunk lock an atomic word in the same memory as enabled, at most n registered threads and at least n chunks in every ring: no thread is ever in the loop of getChunk without a chunk to take; a logging call can always go on whatever the others do, and is over after at most thirteen moves, not counting compare-exchanges that fail and are made again; a thread in any call can go on, except that the eviction waits while each thread left to evict has its chunk lock in a logging call that can go on; from every state an eviction can be brought to its end, with the stopped callback next and the log off, by steps of the evicting thread and of the threads left that finish the logging calls they are in. A thread that tries its chunk lock can take it at once if nobody is evicting it, and can give up at once if somebody is.", "quantifier": "all executions of any length of the release/acquire model with lock words, any number n of threads, any buffers with enough chunks, every value that a failing compare-exchange may read", "why_tests_cant": "A stop that cannot end needs one interleaving of an eviction with logging calls and stale lock words; a test that hangs is not evidence that no schedule would have ended it.", "anchors": ["src/chunk_lock.cc:ChunkLock::tryLockSlave", "src/chunk_lock.cc:ChunkLock::lockMaster", "src/chunk_lock.cc:ChunkLock::unlockSlave", "src/trace_log.cc:TraceLog::evictThreads", "src/trace_log.cc:TraceLog::replaceChunk", "src/trace_buffer.cc:RingTraceBuffer::getChunk"]}
{"id": "C113", "title": "In a fair execution every stop ends, with chunk locks that are the atomic words of the code", "statement": "With each chunk lock an atomic word in the same memory as enabled, at most n registered threads and at least n chunks in every ring, in every fair infinite execution: every logging call ends; if in addition a store to enabled is read by every thread in the end, then once tracing is off and stays off each thread in the end logs no more, and every eviction ends, with tracing off, no thread left to evict and the stopped callback next. Without that condition there is a fair execution in which a stop goes on for ever. An eviction is over after at most 3 * n + 1 moves of its thread, not counting compare-exchanges that fail and are made again.", "quantifier": "all infinite executions of the release/acquire model with lock words that are fair (a thread in a logging call or eviction that can go on from some moment on for ever goes on), any number n of threads, any buffers with enough chunks", "why_tests_cant": "A stop that never ends needs an unlucky schedule without end; a test sees only a finite part of one schedule on one machine.", "anchors": ["src/chunk_lock.cc:ChunkLock::tryLockSlave", "src/chunk_lock.cc:ChunkLock::lockMaster", "src/trace_log.cc:TraceLog::stop", "src/trace_log.cc:TraceLog::evictThreads", "src/trace_log.cc:TraceLog::replaceChunk"]}
{"id": "C114", "title": "No event is dropped after a restart because of the eviction of an earlier stop", "statement": "With each chunk lock an atomic word in the same memory as enabled: a thread that has all that the newest start passed on reads MasterLocked in no lock word, not even an old one; so a thread that reads the newest start when it begins to log does not give up its chunk lock as long as tracing stays on: a try takes the lock or is made again. A thread that has read only an earlier start may give up, although tracing is on again and nobody is evicting it.", "quantifier": "all executions of any length of the release/acquire model with lock words, any number of threads, evictions and restarts", "why_tests_cant": "A compare-exchange that fails may read an old value only on some machines and with unlucky timing; a dropped event leaves no trace.", "anchors": ["src/chunk_lock.cc:ChunkLock::tryLockSlave", "src/chunk_lock.cc:ChunkLock::unlockMaster", "src/trace_log.cc:TraceLog::start", "src/trace_log.cc:TraceLog::evictThreads", "src/trace_log.cc:TraceLog::getChunkTenant"]}
