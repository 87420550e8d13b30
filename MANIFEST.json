{
 "claims": [
  {
   "property": "C01",
   "status": "partial",
   "theorems": [
    "Phosphor.C01_toJson_decodes_partial",
    "Phosphor.C01_toJson_injective",
    "Phosphor.C01_refuted"
   ],
   "note": "Loss-free for every string whose control characters all have a short escape; the code does not escape the other bytes below 0x20, so the full claim is refuted by a witness."
  },
  {
   "property": "C02",
   "status": "proved",
   "theorems": [
    "Phosphor.C02_split_pieces_free",
    "Phosphor.C02_join_intercalate",
    "Phosphor.C02_join_split",
    "Phosphor.C02_split_join",
    "Phosphor.C02_split_join_iff"
   ],
   "note": ""
  },
  {
   "property": "C03",
   "status": "proved",
   "theorems": [
    "Phosphor.C03_simple",
    "Phosphor.C03_star_tail",
    "Phosphor.C03_plus_tail",
    "Phosphor.C03_prefix_star",
    "Phosphor.C03_prefix_plus",
    "Phosphor.C03_complete",
    "Phosphor.C03_cases",
    "Phosphor.C03_star",
    "Phosphor.C03_plus",
    "Phosphor.C03_overaccepts",
    "Phosphor.C03_underaccepts"
   ],
   "note": "Exact language of every pattern, with any number of wildcards; witnesses show where the code differs from the ordinary glob language."
  },
  {
   "property": "C04",
   "status": "proved",
   "theorems": [
    "Phosphor.C04_replace_first",
    "Phosphor.C04_replace_none",
    "Phosphor.C04_cases"
   ],
   "note": ""
  },
  {
   "property": "C05",
   "status": "proved",
   "theorems": [
    "Phosphor.C05_read_back",
    "Phosphor.C05_short_exact",
    "Phosphor.C05_cstring",
    "Phosphor.C05_explicit_length"
   ],
   "note": ""
  },
  {
   "property": "C06",
   "status": "proved",
   "theorems": [
    "Phosphor.C06_decision",
    "Phosphor.C06_default"
   ],
   "note": ""
  },
  {
   "property": "C07",
   "status": "proved",
   "theorems": [
    "Phosphor.RegConc.C07_stable_cell",
    "Phosphor.RegConc.C07_distinct_cells",
    "Phosphor.RegConc.C07_no_duplicates",
    "Phosphor.RegConc.C07_right_cell",
    "Phosphor.RegConc.C07_no_race"
   ],
   "note": "Any number of threads, every interleaving, sequentially consistent memory."
  },
  {
   "property": "C08",
   "status": "proved",
   "theorems": [
    "Phosphor.C08_cells_follow_config",
    "Phosphor.C08_reference_follows_config",
    "Phosphor.RegConc.C08_concurrent",
    "Phosphor.RegConc.C08_during_update",
    "Phosphor.RegConc.C08_every_execution"
   ],
   "note": ""
  },
  {
   "property": "C09",
   "status": "proved",
   "theorems": [
    "Phosphor.C09_bounds",
    "Phosphor.C09_full",
    "Phosphor.C09_room",
    "Phosphor.registry_can_fill",
    "Phosphor.RegConc.C09_concurrent"
   ],
   "note": ""
  },
  {
   "property": "C10",
   "status": "proved",
   "theorems": [
    "Phosphor.C10_disableAll"
   ],
   "note": ""
  },
  {
   "property": "C11",
   "status": "proved",
   "theorems": [
    "Phosphor.C11_update",
    "Phosphor.C11_empty"
   ],
   "note": ""
  },
  {
   "property": "C12",
   "status": "partial",
   "theorems": [
    "Phosphor.C12_exact_partial",
    "Phosphor.C12_round_trip_partial",
    "Phosphor.C12_refuted"
   ],
   "note": "Exact condition (iff) for every TraceConfig. The full claim is false, already for the default configuration."
  },
  {
   "property": "C13",
   "status": "proved",
   "theorems": [
    "Phosphor.C13_size_text",
    "Phosphor.C13_decimal",
    "Phosphor.C13_no_digits"
   ],
   "note": ""
  },
  {
   "property": "C14",
   "status": "partial",
   "theorems": [
    "Phosphor.C14_parse_print",
    "Phosphor.C14_print_parse",
    "Phosphor.C14_invalid",
    "Phosphor.C14_case_refuted"
   ],
   "note": "Inverse pair and rejection proved; the documented case insensitivity is refuted."
  },
  {
   "property": "C16",
   "status": "partial",
   "theorems": [
    "Phosphor.C16_chunk",
    "Phosphor.AnyChunk.C16_capacity_partial",
    "Phosphor.AnyChunk.C16_pages_partial",
    "Phosphor.AnyChunk.C16_refuted"
   ],
   "note": "Proved for the default build (C16_chunk). PHOSPHOR_CHUNK_PAGE_COUNT may be set at compile time: the claim holds exactly up to 640 pages and is refuted from 641 on, where the 16-bit next_free wraps around before the chunk is full."
  },
  {
   "property": "C17",
   "status": "proved",
   "theorems": [
    "Phosphor.C17_fixed",
    "Phosphor.C17_distinct"
   ],
   "note": ""
  },
  {
   "property": "C18",
   "status": "proved",
   "theorems": [
    "Phosphor.C18_never_null",
    "Phosphor.C18_exclusive",
    "Phosphor.C18_fifo",
    "Phosphor.C18_waits_only_if_all_loaned",
    "Phosphor.C18_on_loan"
   ],
   "note": ""
  },
  {
   "property": "C19",
   "status": "proved",
   "theorems": [
    "Phosphor.C19_iterate"
   ],
   "note": ""
  },
  {
   "property": "C20",
   "status": "partial",
   "theorems": [
    "Phosphor.C20_exact_partial",
    "Phosphor.C20_upper_power_of_two_partial",
    "Phosphor.C20_refuted"
   ],
   "note": "Holds for chunk counts up to 2^32, and C20_exact_partial says exactly for which 64-bit counts; the bit smearing omits the shift by 32, so it is refuted above that."
  },
  {
   "property": "C23",
   "status": "proved",
   "theorems": [
    "Phosphor.ChunkLock.C23_mutual_exclusion",
    "Phosphor.ChunkLock.C23_word"
   ],
   "note": "Any number of threads, every interleaving, spurious CAS failures included."
  },
  {
   "property": "C24",
   "status": "proved",
   "theorems": [
    "Phosphor.ChunkLock.C24_try_fails_only_under_master",
    "Phosphor.ChunkLock.C24_try_result",
    "Phosphor.ChunkLock.C24_transitions",
    "Phosphor.ChunkLock.C24_progress"
   ],
   "note": ""
  },
  {
   "property": "C53",
   "status": "proved",
   "theorems": [
    "Phosphor.C53_allocate",
    "Phosphor.C53_at"
   ],
   "note": ""
  },
  {
   "property": "C21",
   "status": "proved",
   "theorems": [
    "Phosphor.Mpmc.C21_fifo",
    "Phosphor.Mpmc.C21_no_invention",
    "Phosphor.Mpmc.C21_once",
    "Phosphor.Mpmc.C21_log",
    "Phosphor.Mpmc.C21_positions"
   ],
   "note": "Every capacity 2^k, k >= 1, any number of threads, every interleaving including spurious CAS failures."
  },
  {
   "property": "C22",
   "status": "proved",
   "theorems": [
    "Phosphor.Mpmc.C22_bounds",
    "Phosphor.Mpmc.C22_no_overwrite",
    "Phosphor.Mpmc.C22_no_race",
    "Phosphor.Mpmc.C22_enqueue_fails_only_if_full",
    "Phosphor.Mpmc.C22_dequeue_fails_only_if_empty",
    "Phosphor.Mpmc.C22_quiet_decisions",
    "Phosphor.Mpmc.C22_quiet_enqueue",
    "Phosphor.Mpmc.C22_quiet_dequeue"
   ],
   "note": ""
  },
  {
   "property": "C25",
   "status": "partial",
   "theorems": [
    "Phosphor.C25_exact_partial",
    "Phosphor.C25_legal_iff",
    "Phosphor.C25_refuted",
    "Phosphor.C25_injective",
    "Phosphor.C25_refuted_texts"
   ],
   "note": "Exact for all non-negative times and all multiples of 1000; exactly for the other (negative) times the text is illegal JSON. No two times share a text."
  },
  {
   "property": "C26",
   "status": "partial",
   "theorems": [
    "Phosphor.C26_event_json_partial",
    "Phosphor.C26_total",
    "Phosphor.C26_string_arg_iff",
    "Phosphor.C26_iff",
    "Phosphor.C26_unambiguous",
    "Phosphor.C26_reading",
    "Phosphor.C26_misread",
    "Phosphor.C26_faithful",
    "Phosphor.C26_refuted_quote",
    "Phosphor.C26_refuted_injection",
    "Phosphor.C26_refuted_double"
   ],
   "note": "Exactly characterised (C26_iff): holds if and only if string arguments need no escaping, doubles are finite, names have no unescapable control characters, times and durations are shown as legal numbers; refuted otherwise (string arguments are not escaped)."
  },
  {
   "property": "C54",
   "status": "proved",
   "theorems": [
    "Phosphor.C54_double_finite",
    "Phosphor.C54_float_finite",
    "Phosphor.C54_legal_iff",
    "Phosphor.C54_float_legal_iff",
    "Phosphor.RoundsTo6_unique"
   ],
   "note": "All bit patterns of double and float; %f rounding is the model of the C library."
  },
  {
   "property": "C55",
   "status": "proved",
   "theorems": [
    "Phosphor.C55_integer",
    "Phosphor.C55_bool",
    "Phosphor.C55_pointer",
    "Phosphor.C55_nullptr",
    "Phosphor.C55_istring"
   ],
   "note": ""
  },
  {
   "property": "C56",
   "status": "proved",
   "theorems": [
    "Phosphor.C56_ids",
    "Phosphor.C56_id_of_integer"
   ],
   "note": ""
  },
  {
   "property": "C60",
   "status": "proved",
   "theorems": [
    "Phosphor.C60_args",
    "Phosphor.C60_absent_irrelevant"
   ],
   "note": ""
  },
  {
   "property": "C61",
   "status": "proved",
   "theorems": [
    "Phosphor.C61_debug_text"
   ],
   "note": ""
  },
  {
   "property": "C27",
   "status": "proved",
   "theorems": [
    "Phosphor.C27_pieces",
    "Phosphor.C27_complete"
   ],
   "note": ""
  },
  {
   "property": "C28",
   "status": "partial",
   "theorems": [
    "Phosphor.C28_read_all",
    "Phosphor.C28_read_all_partial",
    "Phosphor.C28_iff",
    "Phosphor.C28_refuted"
   ],
   "note": "read() returns the whole document iff its length is not 1 modulo 4096; otherwise the last byte is lost (refuted with a witness)."
  },
  {
   "property": "C29",
   "status": "partial",
   "theorems": [
    "Phosphor.C29_document_partial",
    "Phosphor.C29_iff",
    "Phosphor.C29_reading",
    "Phosphor.C29_refuted_name",
    "Phosphor.C29_refuted_injection",
    "Phosphor.C29_refuted_tid"
   ],
   "note": "Exactly characterised (C29_iff): holds if and only if thread names need no escaping, thread ids are below 2^31 and all events are representable; refuted otherwise."
  },
  {
   "property": "C30",
   "status": "partial",
   "theorems": [
    "Phosphor.C30_save_partial",
    "Phosphor.C30_success",
    "Phosphor.C30_refuted"
   ],
   "note": "Every short fwrite is reported; bytes lost by fclose are not (its result is ignored), so the claim is refuted in that case."
  },
  {
   "property": "C31",
   "status": "proved",
   "theorems": [
    "Phosphor.C31_path",
    "Phosphor.C31_pid",
    "Phosphor.C31_timestamp"
   ],
   "note": "Years of four digits for the time stamp."
  },
  {
   "property": "C32",
   "status": "proved",
   "theorems": [
    "Phosphor.TLog.C32_getBuffer",
    "Phosphor.TLog.C32_getTraceContext",
    "Phosphor.TLog.C32_once"
   ],
   "note": "Any number of threads, any interleaving, arbitrary stopped callbacks."
  },
  {
   "property": "C33",
   "status": "proved",
   "theorems": [
    "Phosphor.TLog.C33_no_chunk",
    "Phosphor.TLog.C33_disabled",
    "Phosphor.TLog.C33_unregistered",
    "Phosphor.TLog.C33_unregistered_call"
   ],
   "note": ""
  },
  {
   "property": "C34",
   "status": "proved",
   "theorems": [
    "Phosphor.TLog.C34_complete",
    "Phosphor.TLog.C34_stored",
    "Phosphor.TLog.C34_lost",
    "Phosphor.TLog.C34_subsequence",
    "Phosphor.TLog.C34_begins",
    "Phosphor.TLog.C34_window",
    "Phosphor.TLog.C34_prefix",
    "Phosphor.TLog.C34_gap"
   ],
   "note": "Completeness assumes thread ids are not reused and that callbacks run by a restarting start() do not themselves start; order/no-invention holds without these."
  },
  {
   "property": "C36",
   "status": "proved",
   "theorems": [
    "Phosphor.TLog.C36_stop",
    "Phosphor.TLog.C36_call",
    "Phosphor.TLog.C36_off",
    "Phosphor.TLog.C36_idle"
   ],
   "note": "Which callback is called at a restart is C37."
  },
  {
   "property": "C37",
   "status": "partial",
   "theorems": [
    "Phosphor.TLog.C37_stopped_partial",
    "Phosphor.TLog.C37_refuted"
   ],
   "note": "Holds for stops other than those made by start() itself; a restart calls the callback of the new configuration (refuted)."
  },
  {
   "property": "C38",
   "status": "partial",
   "theorems": [
    "Phosphor.TLog.C38_rejected_partial",
    "Phosphor.TLog.C38_refuted"
   ],
   "note": "A rejected start overwrites the configuration (refuted); everything else is unchanged."
  },
  {
   "property": "C39",
   "status": "proved",
   "theorems": [
    "Phosphor.TLog.C39_generation",
    "Phosphor.TLog.C39_new",
    "Phosphor.TLog.C39_runs"
   ],
   "note": ""
  },
  {
   "property": "C40",
   "status": "partial",
   "theorems": [
    "Phosphor.TLog.C40_names_partial",
    "Phosphor.TLog.C40_exact",
    "Phosphor.TLog.C40_refuted",
    "Phosphor.TLog.C40_refuted_reuse"
   ],
   "note": "Refuted for threads that deregister after the stop but before retrieval, and for reused thread ids; proved otherwise."
  },
  {
   "property": "C41",
   "status": "partial",
   "theorems": [
    "Phosphor.TLog.C41_names_partial",
    "Phosphor.TLog.C41_refuted"
   ],
   "note": "Names of departed threads are removed when a run starts; the set of departed threads is never emptied (refuted)."
  },
  {
   "property": "C42",
   "status": "proved",
   "theorems": [
    "Phosphor.TLog.C42_register",
    "Phosphor.TLog.C42_deregister",
    "Phosphor.TLog.C42_registered"
   ],
   "note": ""
  },
  {
   "property": "C43",
   "status": "proved",
   "theorems": [
    "Phosphor.TLog.C43_unreferenced",
    "Phosphor.TLog.C43_step",
    "Phosphor.TLog.C43_never_written"
   ],
   "note": ""
  },
  {
   "property": "C44",
   "status": "proved",
   "theorems": [
    "Phosphor.TLog.C44_exclusive",
    "Phosphor.TLog.C44_unmixed"
   ],
   "note": "with returnChunk as one step; C100_exclusive and C100_refuted_pointer say what holds while a thread is inside it"
  },
  {
   "property": "C45",
   "status": "partial",
   "theorems": [
    "Phosphor.TLog.C45_safe_partial",
    "Phosphor.TLog.C45_refuted"
   ],
   "note": "Refuted when a stopped callback run by a restarting start() starts tracing itself; proved for all other executions."
  },
  {
   "property": "C48",
   "status": "proved",
   "theorems": [
    "Phosphor.TLog.C48_read",
    "Phosphor.TLog.C48_read_sound",
    "Phosphor.TLog.C48_stored"
   ],
   "note": ""
  },
  {
   "property": "C15",
   "status": "proved",
   "theorems": [
    "Phosphor.TLog.C15_reject",
    "Phosphor.TLog.C15_accept",
    "Phosphor.TLog.C15_size"
   ],
   "note": ""
  },
  {
   "property": "C35",
   "status": "proved",
   "theorems": [
    "Phosphor.TLog.C35_full_stops"
   ],
   "note": ""
  },
  {
   "property": "C46",
   "status": "partial",
   "theorems": [
    "Phosphor.TLog.C46_own_run_partial",
    "Phosphor.TLog.C46_found_full",
    "Phosphor.TLog.C46_refuted"
   ],
   "note": "Refuted when a stopped callback run by a restarting start() starts tracing itself; proved for all other executions."
  },
  {
   "property": "C58",
   "status": "proved",
   "theorems": [
    "Phosphor.C58_startup_trace",
    "Phosphor.TLog.C58_off",
    "Phosphor.TLog.C58_parse_error",
    "Phosphor.TLog.C58_size_error",
    "Phosphor.TLog.C58_on"
   ],
   "note": ""
  },
  {
   "property": "C47",
   "status": "partial",
   "theorems": [
    "Phosphor.TLog.C47_partial",
    "Phosphor.TLog.C47_fair_partial",
    "Phosphor.TLog.C47_refuted"
   ],
   "note": "A stop in progress is brought to its end by every fair schedule (C47_fair_partial), and can be driven to it from every reachable state, in fixed mode, and in ring mode if the ring has a chunk per registered thread (C47_partial). Does not hold otherwise: with a one-chunk ring and two logging threads the stop waits for ever, whatever any thread does (C47_refuted). C101 says the same with getChunk and returnChunk opened up."
  },
  {
   "property": "C52",
   "status": "partial",
   "theorems": [
    "Phosphor.TLog.C52_keys",
    "Phosphor.TLog.C52_log_keys",
    "Phosphor.TLog.C52_full",
    "Phosphor.TLog.C52_total_partial",
    "Phosphor.TLog.C52_chunk_count",
    "Phosphor.TLog.C52_loaned_partial",
    "Phosphor.TLog.C52_loaned_refuted",
    "Phosphor.TLog.C52_log_numbers"
   ],
   "note": "All documented keys, fullness, chunk counts and the log's own numbers hold. loaned_chunks is exact while tracing (between calls of getChunk and returnChunk; during them see C98_on_loan and C98_refuted_on_loan), but stale after a stop (C52_loaned_refuted). total_loaned counts, in a ring, also the callers that still wait (C52_total_partial gives the exact count)."
  },
  {
   "property": "C49",
   "status": "proved",
   "theorems": [
    "Phosphor.C49_enabled",
    "Phosphor.C49_disabled",
    "Phosphor.C49_count",
    "Phosphor.C49_nested"
   ],
   "note": "Clock differences that do not fit 64 bits are undefined behaviour (hypothesis Fits, true of any clock counting from 0)."
  },
  {
   "property": "C50",
   "status": "proved",
   "theorems": [
    "Phosphor.C50_enabled",
    "Phosphor.C50_disabled",
    "Phosphor.C50_lock_throws",
    "Phosphor.C50_lock_discipline",
    "Phosphor.C50_lockguard_silent",
    "Phosphor.C50_lockguard_events",
    "Phosphor.C50_names"
   ],
   "note": "C50_lockguard_silent: the documentation of TRACE_LOCKGUARD (always two events) fails when the clock does not advance, because the comparison with the zero threshold is strict."
  },
  {
   "property": "C51",
   "status": "proved",
   "theorems": [
    "Phosphor.C51_sequential",
    "Phosphor.TpConc.C51_concurrent",
    "Phosphor.TpConc.C51_quiet",
    "Phosphor.TpConc.C51_pointer_stable",
    "Phosphor.TpConc.C51_lookups",
    "Phosphor.TpConc.C51_lookups_refuted"
   ],
   "note": "Proved for all histories, and for all interleavings at the granularity of memory accesses (where the configuration in force is the last finished one or the one being installed). With several threads \"at most once\" is at most once per thread: C51_lookups_refuted shows two threads looking up the same trace point."
  },
  {
   "property": "C59",
   "status": "proved",
   "theorems": [
    "Phosphor.TLog.C59_kept",
    "Phosphor.TLog.C59_last",
    "Phosphor.TLog.C59_never_stops",
    "Phosphor.TLog.C59_any_number"
   ],
   "note": "Thread t logs into a ring of N chunks while the other threads do anything but log, in any interleaving. Holds for every N >= 1 and number of events; one event fewer is guaranteed while a call is between emptying the oldest chunk and storing into it."
  },
  {
   "property": "C57",
   "status": "partial",
   "theorems": [
    "Phosphor.TLog.C57_alone_partial",
    "Phosphor.TLog.C57_untouched_partial",
    "Phosphor.TLog.C57_references_partial",
    "Phosphor.TLog.C57_safe_partial",
    "Phosphor.TLog.C57_refuted_write",
    "Phosphor.TLog.C57_refuted_dangling"
   ],
   "note": "Refuted: the chunk a thread holds is one thread-local pointer for all logs, so logging to a second log writes into the buffer of the first, or follows a dangling pointer. Proved for executions in which every thread logs to and registers with one log only: every log then behaves as if it were alone."
  },
  {
   "property": "C62",
   "status": "proved",
   "theorems": [
    "Phosphor.Mpmc.W.C62_write_no_race",
    "Phosphor.Mpmc.W.C62_read_no_race",
    "Phosphor.Mpmc.W.C62_fifo",
    "Phosphor.Mpmc.W.C62_once",
    "Phosphor.Mpmc.W.C62_log",
    "Phosphor.Mpmc.W.C62_no_overwrite",
    "Phosphor.Mpmc.W.C62_handover",
    "Phosphor.Mpmc.W.C62_enqueue_fails",
    "Phosphor.Mpmc.W.C62_dequeue_fails",
    "Phosphor.Mpmc.W.C62_refuted_spurious_full"
   ],
   "note": "Everything in the statement is proved for the release/acquire model of Verif/Model/Weak.lean, which has no load buffering. Refuted extra: a single enqueue may report a full queue because it read an outdated sequence number; the callers retry."
  },
  {
   "property": "C63",
   "status": "proved",
   "theorems": [
    "Phosphor.ChunkLock.W.C63_exclusive",
    "Phosphor.ChunkLock.W.C63_no_race",
    "Phosphor.ChunkLock.W.C63_handover",
    "Phosphor.ChunkLock.W.C63_debug_assert",
    "Phosphor.ChunkLock.W.C63_available",
    "Phosphor.ChunkLock.W.C63_try_fails",
    "Phosphor.ChunkLock.W.C63_refuted_spurious_fail"
   ],
   "note": "Proved for the release/acquire model of Verif/Model/Weak.lean. C63_refuted_spurious_fail: tryLockSlave may read an outdated MasterLocked and give up although nobody holds the lock."
  },
  {
   "property": "C64",
   "status": "proved",
   "theorems": [
    "Phosphor.RegConc.W.C64_scan_no_race",
    "Phosphor.RegConc.W.C64_rescan_no_race",
    "Phosphor.RegConc.W.C64_write_no_race",
    "Phosphor.RegConc.W.C64_calculate_no_race",
    "Phosphor.RegConc.W.C64_configure_no_race",
    "Phosphor.RegConc.W.C64_lookup",
    "Phosphor.RegConc.W.C64_same",
    "Phosphor.RegConc.W.C64_different",
    "Phosphor.RegConc.W.C64_pointer",
    "Phosphor.RegConc.W.C64_status",
    "Phosphor.RegConc.W.C64_tested",
    "Phosphor.RegConc.W.C64_decides",
    "Phosphor.RegConc.W.C64_configurations",
    "Phosphor.RegConc.W.C64_finish",
    "Phosphor.RegConc.W.C64_synchronise",
    "Phosphor.RegConc.W.C64_remembers",
    "Phosphor.RegConc.W.C64_refuted_stale"
   ],
   "note": "Proved for the release/acquire model of Verif/Model/Weak.lean. C64_refuted_stale: a trace point that is not ordered after a finished update may still obey the previous configuration."
  },
  {
   "property": "C65",
   "status": "proved",
   "theorems": [
    "Phosphor.TLog.W.C65_no_race",
    "Phosphor.TLog.W.C65_no_use_after_free",
    "Phosphor.TLog.W.C65_return",
    "Phosphor.TLog.W.C65_write",
    "Phosphor.TLog.W.C65_exclusive",
    "Phosphor.TLog.W.C65_taken",
    "Phosphor.TLog.W.C65_take_knows",
    "Phosphor.TLog.W.C65_refuted_callback"
   ],
   "note": "Proved for the release/acquire model of Verif/Model/Weak.lean; mutex, chunk locks and return queue pass on knowledge as std::mutex, C63 and C62 do. C65_refuted_callback shows why the condition on the callback is needed: without it a buffer is replaced and destroyed while a thread uses it."
  },
  {
   "property": "C66",
   "status": "partial",
   "theorems": [
    "Phosphor.Macro.C66_event",
    "Phosphor.Macro.C66_disabled",
    "Phosphor.Macro.C66_complete",
    "Phosphor.Macro.C66_duration_iff",
    "Phosphor.Macro.C66_complete_partial",
    "Phosphor.Macro.C66_complete_usage",
    "Phosphor.Macro.C66_scoped",
    "Phosphor.Macro.C66_async_complete",
    "Phosphor.Macro.C66_async_complete_text",
    "Phosphor.Macro.C66_refuted_duration",
    "Phosphor.Macro.C66_refuted_async_id",
    "Phosphor.Macro.C66_operators"
   ],
   "note": "Holds for all macros except: a complete macro whose start is an unparenthesised sum records a wrong duration (right iff the operands after the first sum to zero), and an asynchronous complete macro whose id changes when evaluated records two different ids."
  },
  {
   "property": "C67",
   "status": "partial",
   "theorems": [
    "Phosphor.Macro.C67_once_partial",
    "Phosphor.Macro.C67_complete",
    "Phosphor.Macro.C67_scoped",
    "Phosphor.Macro.C67_refuted_start",
    "Phosphor.Macro.C67_refuted_id",
    "Phosphor.Macro.C67_refuted_scoped"
   ],
   "note": "Holds for the macros that record one event at the time of the call. Refuted for the start of complete macros and the id of asynchronous complete macros (evaluated twice) and for scoped macros (evaluated also when disabled)."
  },
  {
   "property": "C68",
   "status": "partial",
   "theorems": [
    "Phosphor.Macro.C68_interface_partial",
    "Phosphor.Macro.C68_refuted",
    "Phosphor.Macro.C68_refuted_functions",
    "Phosphor.Macro.C68_lockguard",
    "Phosphor.Macro.C68_lock_ops"
   ],
   "note": "Locking is unchanged. TRACE_FUNCTION1 and TRACE_FUNCTION2 change their number of parameters and TRACE_ASYNC_COMPLETE0/1/2 are not defined when compiled out (refuted); all other macros keep their interface."
  },
  {
   "property": "C69",
   "status": "proved",
   "theorems": [
    "Phosphor.TLog.C69_document",
    "Phosphor.TLog.C69_ring",
    "Phosphor.TLog.C69_pieces",
    "Phosphor.TLog.C69_file",
    "Phosphor.TLog.C69_context",
    "Phosphor.TLog.C69_macro"
   ],
   "note": ""
  },
  {
   "property": "C70",
   "status": "proved",
   "theorems": [
    "Phosphor.Dyn.C70_make",
    "Phosphor.Dyn.C70_destruct",
    "Phosphor.Dyn.C70_life",
    "Phosphor.Dyn.C70_default",
    "Phosphor.Dyn.C70_values",
    "Phosphor.Dyn.C70_copy",
    "Phosphor.Dyn.C70_access",
    "Phosphor.Dyn.C70_iterate",
    "Phosphor.Dyn.C70_fill",
    "Phosphor.Dyn.C70_back_empty"
   ],
   "note": ""
  },
  {
   "property": "C71",
   "status": "proved",
   "theorems": [
    "Phosphor.Cfg.C71_mode",
    "Phosphor.Cfg.C71_values",
    "Phosphor.Cfg.C71_environment",
    "Phosphor.Cfg.C71_setters",
    "Phosphor.Cfg.C71_refines",
    "Phosphor.Cfg.C71_default"
   ],
   "note": ""
  },
  {
   "property": "C72",
   "status": "partial",
   "theorems": [
    "Phosphor.Tid.C72_own_partial",
    "Phosphor.Tid.C72_distinct_partial",
    "Phosphor.Tid.C72_stable",
    "Phosphor.Tid.C72_fork",
    "Phosphor.Tid.C72_refuted"
   ],
   "note": "The full statement (Phosphor.Tid.C72_own) is false: a child process forked by a thread that had asked for its id goes by the id of its parent (C72_refuted, C72_fork). Proved for every thread that was not made by fork."
  },
  {
   "property": "C73",
   "status": "proved",
   "theorems": [
    "Phosphor.RA.C73_atomic",
    "Phosphor.RA.C73_no_wrap",
    "Phosphor.RA.C73_read",
    "Phosphor.RA.C73_exact",
    "Phosphor.RA.C73_assign_loses"
   ],
   "note": ""
  },
  {
   "property": "C74",
   "status": "partial",
   "theorems": [
    "Phosphor.TLog.C74_fixed",
    "Phosphor.TLog.C74_wait_free_partial",
    "Phosphor.TLog.C74_seventeen_partial",
    "Phosphor.TLog.C74_never_blocked",
    "Phosphor.RingConc.C98_refuted_wait_free"
   ],
   "note": "True in fixed mode (C74_fixed). In ring mode the code does not have the property: returnChunk can be held up for as long as another thread stands still inside dequeue (C98_refuted_wait_free, two threads and two chunks). The partial theorems hold in ring mode when an operation on the return queue counts as one step."
  },
  {
   "property": "C75",
   "status": "proved",
   "theorems": [
    "Phosphor.Mpmc.C75_enqueue",
    "Phosphor.Mpmc.C75_dequeue",
    "Phosphor.Mpmc.C75_lock_free",
    "Phosphor.Mpmc.C75_not_wait_free"
   ],
   "note": ""
  },
  {
   "property": "C76",
   "status": "proved",
   "theorems": [
    "Phosphor.TLog.C76_no_gaps",
    "Phosphor.TLog.C76_last",
    "Phosphor.TLog.C76_amount",
    "Phosphor.TLog.C76_leaving"
   ],
   "note": "C76_leaving shows that the amount needs that nobody deregisters"
  },
  {
   "property": "C77",
   "status": "partial",
   "theorems": [
    "Phosphor.C77_refuted",
    "Phosphor.C77_refuted_int",
    "Phosphor.C77_partial",
    "Phosphor.C77_loop_partial",
    "Phosphor.C77_chunks"
   ],
   "note": "refuted: end() of every full buffer forms a reference one past the array. Proved for buffers not yet full, for the loop apart from end(), and for chunks()"
  },
  {
   "property": "C78",
   "status": "partial",
   "theorems": [
    "Phosphor.Exc.C78_refuted",
    "Phosphor.Exc.C78_refuted_exit",
    "Phosphor.Exc.C78_refuted_lost",
    "Phosphor.Exc.C78_refuted_null",
    "Phosphor.Exc.C78_stop_partial",
    "Phosphor.Exc.C78_callback_partial",
    "Phosphor.Exc.C78_unopened_partial",
    "Phosphor.Exc.C78_start_partial",
    "Phosphor.Exc.C78_usable_partial",
    "Phosphor.Exc.C78_log_partial",
    "Phosphor.Exc.C78_scope_partial",
    "Phosphor.Exc.C78_destroy_partial",
    "Phosphor.Exc.C78_defined_partial",
    "Phosphor.Exc.C78_memory_partial",
    "Phosphor.Exc.C78_take_partial"
   ],
   "note": "refuted: the stopped callback also runs inside logEvent and destructors. Proved: the log stays usable after any history, and exactly when each call raises or terminates"
  },
  {
   "property": "C79",
   "status": "proved",
   "theorems": [
    "Phosphor.Ctx.C79_owner",
    "Phosphor.Ctx.C79_move",
    "Phosphor.Ctx.C79_self",
    "Phosphor.Ctx.C79_names",
    "Phosphor.Ctx.C79_export",
    "Phosphor.Ctx.C79_moved_away"
   ],
   "note": "C79_moved_away shows the condition on exporters is needed"
  },
  {
   "property": "C80",
   "status": "partial",
   "theorems": [
    "Phosphor.Whole.C80_refuted",
    "Phosphor.Whole.C80_test",
    "Phosphor.Whole.C80_off",
    "Phosphor.Whole.C80_recorded_partial",
    "Phosphor.Whole.C80_some_run"
   ],
   "note": "refuted: the category is tested before the event is logged, and the log may have been restarted in between. Proved: the test follows the run that is on; an event tested and logged in the same run belongs to an enabled category; any event belongs to a category some configuration enabled"
  },
  {
   "property": "C81",
   "status": "partial",
   "theorems": [
    "Phosphor.TLog.C81_refuted",
    "Phosphor.TLog.C81_dangling_partial",
    "Phosphor.TLog.C81_partial",
    "Phosphor.TLog.C81_storage_partial",
    "Phosphor.TLog.C81_stuck"
   ],
   "note": "refuted: a thread that ends while registered leaves its address in registered_chunk_tenants. Proved: only such threads matter; without them nothing reads or writes the storage of ended threads; with one, no stop of a running trace completes without undefined behaviour"
  },
  {
   "property": "C82",
   "status": "proved",
   "theorems": [
    "Phosphor.Scopes.C82_tree",
    "Phosphor.Scopes.C82_reconstruct",
    "Phosphor.Scopes.C82_locks"
   ],
   "note": "logEvent itself does not throw here; C78 says when it does"
  },
  {
   "property": "C83",
   "status": "proved",
   "theorems": [
    "Phosphor.Scopes.C83_transparent",
    "Phosphor.Scopes.C83_same"
   ],
   "note": "macro arguments are values here; C67 says how often the macros evaluate argument expressions"
  },
  {
   "property": "C84",
   "status": "partial",
   "theorems": [
    "Phosphor.MpmcWord.C84_wrap_partial",
    "Phosphor.MpmcWord.C84_defined_partial",
    "Phosphor.MpmcWord.C84_unlimited",
    "Phosphor.MpmcWord.C84_overtaken_refuted",
    "Phosphor.MpmcWord.C84_half_refuted",
    "Phosphor.MpmcWord.C84_overflow_refuted"
   ],
   "note": "false of the code beyond 2^(w-1) items: the signed subtraction overflows (undefined behaviour), and a thread overtaken by 2^w items overwrites an untaken item; proved up to 2^(w-1)-2n items without conditions, and for any number of items with wrapping subtraction when no thread is overtaken by 2^(w-1)-2n claims"
  },
  {
   "property": "C85",
   "status": "proved",
   "theorems": [
    "Phosphor.Whole.C85_once",
    "Phosphor.Whole.C85_recorded_once",
    "Phosphor.Whole.C85_stored",
    "Phosphor.Whole.C85_trace"
   ],
   "note": ""
  },
  {
   "property": "C86",
   "status": "partial",
   "theorems": [
    "Phosphor.LogLocked.C86_same",
    "Phosphor.LogLocked.C86_keeps",
    "Phosphor.LogLocked.C86_off",
    "Phosphor.LogLocked.C86_safe_partial",
    "Phosphor.LogLocked.C86_ring",
    "Phosphor.LogLocked.C86_outside",
    "Phosphor.LogLocked.C86_certain",
    "Phosphor.LogLocked.C86_refuted"
   ],
   "note": "violated: maybe_stop try_locks a mutex the thread may own; proved to happen exactly at a fixed buffer without chunks left"
  },
  {
   "property": "C87",
   "status": "proved",
   "theorems": [
    "Phosphor.RegConc.W.C87_bounded",
    "Phosphor.RegConc.W.C87_never_stuck",
    "Phosphor.RegConc.W.C87_finishes"
   ],
   "note": "at most 511 steps per call; category names without NUL (a C string)"
  },
  {
   "property": "C88",
   "status": "proved",
   "theorems": [
    "Phosphor.Mpmc.W.C88_queue",
    "Phosphor.Mpmc.W.C88_alone",
    "Phosphor.ChunkLock.W.C88_lock",
    "Phosphor.ChunkLock.W.C88_passed_on",
    "Phosphor.ChunkLock.W.C88_gives_up",
    "Phosphor.RegConc.W.C88_registry",
    "Phosphor.RegConc.W.C88_sees"
   ],
   "note": "category names without NUL (a C string) for the registry"
  },
  {
   "property": "C89",
   "status": "proved",
   "theorems": [
    "Phosphor.Whole.C89_document",
    "Phosphor.Whole.C89_pieces"
   ],
   "note": "thread ids in use are different (C72) and the events and names are ones JSON can represent (C26, C29)"
  },
  {
   "property": "C90",
   "status": "partial",
   "theorems": [
    "Phosphor.Exporter.Ex.C90_no_fault",
    "Phosphor.Exporter.Ex.C90_written",
    "Phosphor.Exporter.Ex.C90_retry_partial",
    "Phosphor.Exporter.Ex.C90_comma",
    "Phosphor.Exporter.Ex.C90_refuted_comma",
    "Phosphor.Exporter.Ex.C90_refuted_lost",
    "Phosphor.Exporter.Ex.C90_refuted_end"
   ],
   "note": "the code violates it: the comma is appended before the text is made and the iterator is advanced before the text is kept, so that a later read repeats the comma, lacks the item, or refers to an event past the last"
  },
  {
   "property": "C91",
   "status": "partial",
   "theorems": [
    "Phosphor.Fmt.C91_text",
    "Phosphor.Fmt.C91_failure",
    "Phosphor.Fmt.C91_second",
    "Phosphor.Fmt.C91_changed_partial",
    "Phosphor.Fmt.C91_refuted_cut",
    "Phosphor.Fmt.C91_enumerators",
    "Phosphor.Fmt.C91_type",
    "Phosphor.Fmt.C91_first",
    "Phosphor.Fmt.C91_second_arg"
   ],
   "note": "the code violates it in one case: a text that has become longer by exactly one byte is cut without an exception"
  },
  {
   "property": "C92",
   "status": "proved",
   "theorems": [
    "Phosphor.Custom.C92_protocol",
    "Phosphor.Custom.C92_defined",
    "Phosphor.Custom.C92_refuted_alone",
    "Phosphor.Custom.C92_refuted_returned"
   ],
   "note": "the two refuted theorems are not part of the statement: the header says a buffer need not be thread-safe, but getChunk is called by several threads at once without the lock; and chunks on loan when tracing stops are never given back"
  },
  {
   "property": "C93",
   "status": "partial",
   "theorems": [
    "Phosphor.Mem.C93_sizes",
    "Phosphor.Mem.C93_enabled",
    "Phosphor.Mem.C93_always_partial",
    "Phosphor.Mem.C93_twice",
    "Phosphor.Mem.C93_cleared",
    "Phosphor.Mem.C93_before",
    "Phosphor.Mem.C93_refuted_restart",
    "Phosphor.Mem.C93_refuted_empty",
    "Phosphor.Mem.C93_refuted_small"
   ],
   "note": "holds whenever tracing is enabled, and at every moment when buffers are retrieved before the next start; refuted by the code otherwise: start() makes the new buffer before it frees the old one, and entries of deregistered threads stay"
  },
  {
   "property": "C94",
   "status": "partial",
   "theorems": [
    "Phosphor.Nest.C94_viewer",
    "Phosphor.Nest.C94_one_end",
    "Phosphor.Nest.C94_one_start",
    "Phosphor.Nest.C94_part",
    "Phosphor.Nest.C94_trace",
    "Phosphor.Nest.C94_ring",
    "Phosphor.Nest.C94_document",
    "Phosphor.Nest.C94_calls",
    "Phosphor.Nest.C94_program_partial",
    "Phosphor.Nest.C94_refuted_leave",
    "Phosphor.Nest.C94_refuted_ring",
    "Phosphor.Nest.C94_refuted_switch"
   ],
   "note": "proved for threads that stay registered and, for the macros, for categories that stay enabled or disabled; refuted by the code for a thread that deregisters in between, for a category switched in between, and for the order in which a ring is read"
  },
  {
   "property": "C95",
   "status": "partial",
   "theorems": [
    "Phosphor.Clock.C95_recorded",
    "Phosphor.Clock.C95_log",
    "Phosphor.Clock.C95_order",
    "Phosphor.Clock.C95_begin",
    "Phosphor.Clock.C95_end",
    "Phosphor.Clock.C95_within_partial",
    "Phosphor.Clock.C95_sorted",
    "Phosphor.Clock.C95_runs",
    "Phosphor.Clock.C95_causal",
    "Phosphor.Clock.C95_read",
    "Phosphor.Clock.C95_refuted_ring",
    "Phosphor.Clock.C95_refuted_scope",
    "Phosphor.Clock.C95_refuted_flag"
   ],
   "note": "proved for the construction of all events, for the end of all events and for the beginning of events whose caller measures no times; refuted by the code for the beginning of scoped events, which may have been entered before the run"
  },
  {
   "property": "C96",
   "status": "proved",
   "theorems": [
    "Phosphor.Lin.C96_linearizable"
   ],
   "note": "for every execution of the model of the log, with the recorder stated as a predicate on sequences of calls, effects, returns and items of the history; an event stored while a stop is under way takes effect before the stop"
  },
  {
   "property": "C97",
   "status": "proved",
   "theorems": [
    "Phosphor.TLog.C97_enough",
    "Phosphor.TLog.C97_file",
    "Phosphor.TLog.C97_least",
    "Phosphor.TLog.C97_tight",
    "Phosphor.TLog.C97_leaving"
   ],
   "note": "for every number of threads, either mode and every interleaving, from the moment a run begins; C97_least is about fixed mode (for rings see C76_amount); C97_tight: one event more than the bound and it is lost with 99 places free; C97_leaving: a thread that deregisters wastes its chunk, so the proviso is needed"
  },
  {
   "property": "C98",
   "status": "partial",
   "theorems": [
    "Phosphor.RingConc.C98_refines",
    "Phosphor.RingConc.C98_exclusive",
    "Phosphor.RingConc.C98_defined",
    "Phosphor.RingConc.C98_never_blocked",
    "Phosphor.RingConc.C98_get_waits",
    "Phosphor.RingConc.C98_return_waits",
    "Phosphor.RingConc.C98_return_possible",
    "Phosphor.RingConc.C98_get_possible",
    "Phosphor.RingConc.C98_on_loan",
    "Phosphor.RingConc.C98_on_loan_quiet",
    "Phosphor.RingConc.C98_return_stuck",
    "Phosphor.RingConc.C98_get_stuck",
    "Phosphor.RingConc.C98_refuted_wait_free",
    "Phosphor.RingConc.C98_refuted_on_loan"
   ],
   "note": "everything but the last sentence is proved, for the queue under sequentially consistent memory with unbounded positions (for weaker memory and wrapping positions see C62, C84 and C88). The last sentence is refuted by the code: a thread that stands still between its claim of a position and the release of the slot keeps others in their loops (C98_return_stuck, C98_get_stuck, with the witness C98_refuted_wait_free); and within calls on_loan can exceed the number of chunks (C98_refuted_on_loan)"
  },
  {
   "property": "C99",
   "status": "proved",
   "theorems": [
    "Phosphor.RingConc.C99_progress",
    "Phosphor.RingConc.C99_all_return",
    "Phosphor.RingConc.C99_refuted_starvation"
   ],
   "note": "for every fair endless execution; that each single call returns is more than the code promises (C99_refuted_starvation: any number of rounds while another thread gets and returns the only chunk)"
  },
  {
   "property": "C100",
   "status": "proved",
   "theorems": [
    "Phosphor.LogBuf.C100_contract",
    "Phosphor.LogBuf.C100_defined",
    "Phosphor.LogBuf.C100_goes_on",
    "Phosphor.LogBuf.C100_accepted",
    "Phosphor.LogBuf.C100_exclusive",
    "Phosphor.LogBuf.C100_store",
    "Phosphor.LogBuf.C100_null",
    "Phosphor.LogBuf.C100_kind",
    "Phosphor.LogBuf.C100_ring_answers",
    "Phosphor.LogBuf.C100_stuck",
    "Phosphor.LogBuf.C100_refuted_pointer",
    "Phosphor.LogBuf.C100_refuted_mutex"
   ],
   "note": "C100_refuted_mutex: a thread that stands still in getChunk, where it has no mutex, can keep a thread in deregisterThread and the mutex of the log taken. C100_refuted_pointer: a thread inside returnChunk may still have a pointer to a chunk another thread is about to store into; it clears the pointer without using it"
  },
  {
   "property": "C101",
   "status": "proved",
   "theorems": [
    "Phosphor.LogBuf.C101_wait_free",
    "Phosphor.LogBuf.C101_progress",
    "Phosphor.LogBuf.C101_stop",
    "Phosphor.LogBuf.C101_refuted_room",
    "Phosphor.LogBuf.C101_refuted_fair"
   ],
   "note": "C101_refuted_room and C101_refuted_fair: with fewer chunks than registered threads a stop may wait for ever, whatever any thread does, also under a fair scheduler"
  },
  {
   "property": "C102",
   "status": "proved",
   "theorems": [
    "Phosphor.LogBuf.C102_refines",
    "Phosphor.LogBuf.C102_stored",
    "Phosphor.LogBuf.C102_subsequence",
    "Phosphor.LogBuf.C102_chunks",
    "Phosphor.LogBuf.C102_capacity",
    "Phosphor.LogBuf.C102_history"
   ],
   "note": "buffers of 1 to 2^32 chunks; a stopped callback run by start does not itself call start (C45)"
  },
  {
   "property": "C103",
   "status": "proved",
   "theorems": [
    "Phosphor.TLog.C103_finish",
    "Phosphor.TLog.C103_last",
    "Phosphor.TLog.C103_quiet",
    "Phosphor.LogBuf.C103_opened_finish",
    "Phosphor.LogBuf.C103_opened_quiet"
   ],
   "note": "C103_finish for any callbacks; the others if a stopped callback run by start does not itself call start (C45)"
  },
  {
   "property": "C104",
   "status": "proved",
   "theorems": [
    "Phosphor.TLog.W.C104_none",
    "Phosphor.TLog.W.C104_free",
    "Phosphor.TLog.W.C104_known",
    "Phosphor.TLog.W.C104_callback",
    "Phosphor.TLog.W.C104_quiet",
    "Phosphor.TLog.W.C104_on"
   ],
   "note": "if a stopped callback run by start does not itself call start (C65_refuted_callback shows why)"
  },
  {
   "property": "C105",
   "status": "proved",
   "theorems": [
    "Phosphor.TLog.W.C105_own",
    "Phosphor.TLog.W.C105_block",
    "Phosphor.TLog.W.C105_one_thread",
    "Phosphor.TLog.W.C105_final",
    "Phosphor.TLog.W.C105_fixed"
   ],
   "note": ""
  },
  {
   "property": "C106",
   "status": "proved",
   "theorems": [
    "Phosphor.TLog.W.C106_moves",
    "Phosphor.TLog.W.C106_short",
    "Phosphor.TLog.W.C106_room",
    "Phosphor.TLog.W.C106_logs",
    "Phosphor.TLog.W.C106_waits",
    "Phosphor.TLog.W.C106_stop",
    "Phosphor.TLog.W.C106_refuted_small"
   ],
   "note": "C106_refuted_small shows that the condition on the number of chunks is needed"
  },
  {
   "property": "C107",
   "status": "proved",
   "theorems": [
    "Phosphor.TLog.W.C107_holder",
    "Phosphor.TLog.W.C107_passed",
    "Phosphor.TLog.W.C107_tells",
    "Phosphor.TLog.W.C107_start",
    "Phosphor.TLog.W.C107_stop",
    "Phosphor.TLog.W.C107_refuted_unknown",
    "Phosphor.TLog.W.C107_refuted_stale"
   ],
   "note": "C107_refuted_unknown and C107_refuted_stale show that the thread must know"
  },
  {
   "property": "C108",
   "status": "proved",
   "theorems": [
    "Phosphor.LogBuf.C108_registered",
    "Phosphor.LogBuf.C108_names",
    "Phosphor.LogBuf.C108_unreferenced",
    "Phosphor.LogBuf.C108_never_written",
    "Phosphor.LogBuf.C108_enough"
   ],
   "note": "names when thread ids are not reused, as in C40"
  },
  {
   "property": "C109",
   "status": "proved",
   "theorems": [
    "Phosphor.TLog.W.C109_logs",
    "Phosphor.TLog.W.C109_quiet",
    "Phosphor.TLog.W.C109_stop",
    "Phosphor.TLog.W.C109_refuted_stale"
   ],
   "note": "the condition on stores is the one of C++ that stores become visible in a finite time (a recommendation of the standard); refuted_stale shows that it is needed"
  },
  {
   "property": "C110",
   "status": "proved",
   "theorems": [
    "Phosphor.TLog.W.C110_refines",
    "Phosphor.TLog.W.C110_no_race",
    "Phosphor.TLog.W.C110_no_use_after_free",
    "Phosphor.TLog.W.C110_exclusive",
    "Phosphor.TLog.W.C110_none",
    "Phosphor.TLog.W.C110_known",
    "Phosphor.TLog.W.C110_locked",
    "Phosphor.TLog.W.C110_assert",
    "Phosphor.TLog.W.C110_moves"
   ],
   "note": "both builds, with NDEBUG and without; the mutex and the return queue are still objects (C62 for the queue)"
  },
  {
   "property": "C111",
   "status": "proved",
   "theorems": [
    "Phosphor.TLog.W.C111_own",
    "Phosphor.TLog.W.C111_block",
    "Phosphor.TLog.W.C111_one_thread",
    "Phosphor.TLog.W.C111_fixed",
    "Phosphor.TLog.W.C111_final",
    "Phosphor.TLog.W.C111_quiet",
    "Phosphor.TLog.W.C111_on",
    "Phosphor.TLog.W.C111_holder",
    "Phosphor.TLog.W.C111_start",
    "Phosphor.TLog.W.C111_stop"
   ],
   "note": "the mutex and the return queue are still objects (C62 for the queue)"
  },
  {
   "property": "C112",
   "status": "proved",
   "theorems": [
    "Phosphor.TLog.W.C112_room",
    "Phosphor.TLog.W.C112_short",
    "Phosphor.TLog.W.C112_logs",
    "Phosphor.TLog.W.C112_waits",
    "Phosphor.TLog.W.C112_stop",
    "Phosphor.TLog.W.C112_takes",
    "Phosphor.TLog.W.C112_gives_up"
   ],
   "note": "the mutex and the return queue are still objects (C62 for the queue); that an execution can be brought to the end is proved, fairness is the subject of C109 for lock objects"
  },
  {
   "property": "C113",
   "status": "proved",
   "theorems": [
    "Phosphor.TLog.W.C113_logs",
    "Phosphor.TLog.W.C113_quiet",
    "Phosphor.TLog.W.C113_stop",
    "Phosphor.TLog.W.C113_short",
    "Phosphor.TLog.W.C113_refuted_stale"
   ],
   "note": "the mutex and the return queue are still objects (C62 for the queue); C113_refuted_stale: the condition on stores to enabled is needed"
  },
  {
   "property": "C114",
   "status": "proved",
   "theorems": [
    "Phosphor.TLog.W.C114_word",
    "Phosphor.TLog.W.C114_keeps",
    "Phosphor.TLog.W.C114_refuted_stale"
   ],
   "note": "the mutex and the return queue are still objects (C62 for the queue)"
  }
 ]
}