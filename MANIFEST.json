{
 "claims": [
  {
   "property": "C01",
   "status": "proved",
   "theorems": [
    "Verif.Integer.isPowerOfTwo_exact",
    "Verif.Integer.roundup_least",
    "Verif.Integer.roundup_zero",
    "Verif.Integer.roundup_overflow"
   ],
   "note": "all 2^32 inputs, symbolic bit-level proof"
  },
  {
   "property": "C02",
   "status": "partial",
   "theorems": [
    "Verif.Integer.rounddown_largest_partial",
    "Verif.Integer.rounddown_not_largest",
    "Verif.Integer.rounddown_zero_above",
    "Verif.Integer.rounddown_small"
   ],
   "note": "true for 2..2^31; the code violates it for every input above 2^31 (returns 0): negation proved"
  },
  {
   "property": "C03",
   "status": "proved",
   "theorems": [
    "Verif.RingBuf.refines_fifo",
    "Verif.RingBuf.refines_fifo_with_mem",
    "Verif.RingBuf.no_loss_no_dup"
   ],
   "note": "refinement to a list FIFO over all histories"
  },
  {
   "property": "C04",
   "status": "proved",
   "theorems": [
    "Verif.RingBuf.refines_fifo",
    "Verif.RingBuf.space_accounting",
    "Verif.RingBuf.write_all_or_nothing",
    "Verif.RingBuf.peek_pure",
    "Verif.RingBuf.create_spec"
   ],
   "note": "out-of-bounds copies are the outcome none, proved unreachable"
  },
  {
   "property": "C05",
   "status": "proved",
   "theorems": [
    "Verif.RingBuffer.refines_fifo",
    "Verif.RingBuffer.refines_fifo_with_mem",
    "Verif.RingBuffer.refines_fifo_any_counters"
   ],
   "note": "BitVec 32 counters, unbounded histories"
  },
  {
   "property": "C06",
   "status": "proved",
   "theorems": [
    "Verif.RingBuffer.createWithMem_spec",
    "Verif.RingBuffer.create_spec",
    "Verif.RingBuffer.createWithMem_ub",
    "Verif.RingBuffer.create_two_null"
   ],
   "note": "sizes up to 2^30; above that the size computation is a signed shift overflow (UB), proved as such"
  },
  {
   "property": "C07",
   "status": "proved",
   "theorems": [
    "Verif.Spsc.reads_from_stream",
    "Verif.Spsc.received_prefix",
    "Verif.Spsc.no_ub",
    "Verif.Spsc.no_byte_race",
    "Verif.Spsc.unread_intact"
   ],
   "note": "sequentially consistent memory; memcpy bytes in any order; arbitrary client calls"
  },
  {
   "property": "C08",
   "status": "proved",
   "theorems": [
    "Verif.FixedMsgQueue.refines_fifo"
   ],
   "note": "whole-message FIFO over all histories"
  },
  {
   "property": "C09",
   "status": "partial",
   "theorems": [
    "Verif.FixedMsgQueue.capacity_bounds_partial",
    "Verif.FixedMsgQueue.documented_capacity_refused"
   ],
   "note": "documented capacity is never reached: negation proved for every size; real capacity bounds proved"
  },
  {
   "property": "C10",
   "status": "proved",
   "theorems": [
    "Verif.MsgQueue.refines_fifo",
    "Verif.MsgQueue.no_loss_no_dup"
   ],
   "note": ""
  },
  {
   "property": "C100",
   "status": "proved",
   "theorems": [
    "Verif.Zone.offset_of_some_instant",
    "Verif.Zone.offset_right",
    "Verif.Zone.offset_fixed",
    "Verif.Zone.offset_wrong_after_change",
    "Verif.Zone.file_date",
    "Verif.Zone.file_date_local",
    "Verif.Zone.file_date_half_hour",
    "Verif.Zone.set_timezone",
    "Verif.Zone.zones_refused"
   ],
   "note": "gmtime and mktime enter by their contracts; gmtime does not fail."
  },
  {
   "property": "C101",
   "status": "proved",
   "theorems": [
    "Verif.Asprintf.vscprintf_counts",
    "Verif.Asprintf.asprintf_text",
    "Verif.Asprintf.asprintf_reads_back",
    "Verif.Asprintf.asprintf_fails",
    "Verif.Asprintf.asprintf_safe",
    "Verif.Asprintf.answer_beyond_block",
    "Verif.Asprintf.int_max_undefined"
   ],
   "note": "What the format and the arguments turn into is a parameter (a text or an error)."
  },
  {
   "property": "C102",
   "status": "proved",
   "theorems": [
    "Verif.FileSize.by_fs_size",
    "Verif.FileSize.by_fs_answers",
    "Verif.FileSize.by_path_size",
    "Verif.FileSize.by_path_fails",
    "Verif.FileSize.by_path_eq_by_fs",
    "Verif.FileSize.by_path_wraps"
   ],
   "note": "fseek/ftell/stat enter by their contracts."
  },
  {
   "property": "C103",
   "status": "proved",
   "theorems": [
    "Verif.FileLoggerMt.messages_whole",
    "Verif.FileLoggerMt.no_fault",
    "Verif.FileLoggerMt.one_cache",
    "Verif.FileLoggerMt.never_stuck",
    "Verif.FileLoggerMt.every_call_returns",
    "Verif.FileLoggerMt.accepted_once",
    "Verif.FileLoggerMt.objs_carry",
    "Verif.FileLoggerMt.threads_to_files",
    "Verif.FileLoggerMt.lock_needed"
   ],
   "note": "The lock's acquire is taken to succeed (the code ignores its answer); the queue's answers are arbitrary."
  },
  {
   "property": "C104",
   "status": "proved",
   "theorems": [
    "Verif.TimeMt.every_answer_right",
    "Verif.TimeMt.no_fault",
    "Verif.TimeMt.never_stuck",
    "Verif.TimeMt.every_call_returns",
    "Verif.TimeMt.wrong_answer",
    "Verif.TimeMt.lock_needed"
   ],
   "note": "The reader/writer lock by its contract (nobody beside a writer); one cache per format; sequentially consistent memory."
  },
  {
   "property": "C105",
   "status": "proved",
   "theorems": [
    "Verif.WinMutex.no_undefined_behaviour",
    "Verif.WinMutex.mutual_exclusion",
    "Verif.WinMutex.one_object",
    "Verif.WinMutex.lock_answer",
    "Verif.WinMutex.failed_lock",
    "Verif.WinMutex.stuck_means_held",
    "Verif.WinMutex.destroy_of_used",
    "Verif.WinMutex.portable_rwlock_never_works",
    "Verif.WinMutex.every_call_returns",
    "Verif.WinMutex.tso_no_undefined_behaviour",
    "Verif.WinMutex.tso_mutual_exclusion",
    "Verif.WinMutex.tso_one_object"
   ],
   "note": "ptw32_mcs_lock by its contract (C55), CRITICAL_SECTION by its contract (recursive, owned); only holders unlock; safety also under TSO store buffers (WinMutex.Tso); on machines that reorder stores it fails (pso_enters_uninitialised)."
  },
  {
   "property": "C106",
   "status": "proved",
   "theorems": [
    "Verif.KeyHash.wrapped_value",
    "Verif.KeyHash.same_content",
    "Verif.KeyHash.defined_value",
    "Verif.KeyHash.short_defined",
    "Verif.KeyHash.long_overflows",
    "Verif.KeyHash.ascii_overflows",
    "Verif.KeyHash.six_bytes_can_do",
    "Verif.KeyHash.needs_key",
    "Verif.KeyHash.one_byte_matters",
    "Verif.KeyHash.collision"
   ],
   "note": "LP64, char signed; `wrapHash` is the code under -fwrapv, `hash` the code by the standard."
  },
  {
   "property": "C107",
   "status": "proved",
   "theorems": [
    "Verif.MpliteStats.report_exact",
    "Verif.MpliteStats.total_wrong",
    "Verif.MpliteStats.total_reached",
    "Verif.MpliteStats.peaks_not_below",
    "Verif.MpliteStats.peak_below_current"
   ],
   "note": "snprintf by its contract (%u of a 32-bit value); single loads and stores of the counters are atomic, memory sequentially consistent."
  },
  {
   "property": "C108",
   "status": "proved",
   "theorems": [
    "Verif.ThreadName.set_current",
    "Verif.ThreadName.name_after",
    "Verif.ThreadName.given_too_long",
    "Verif.ThreadName.builds_agree",
    "Verif.ThreadName.pool_names",
    "Verif.ThreadName.pool_names_collide"
   ],
   "note": "pthread_setname_np, prctl(PR_SET_NAME) and snprintf by their contracts (Linux)."
  },
  {
   "property": "C109",
   "status": "proved",
   "theorems": [
    "Verif.LogFacade.slog_build",
    "Verif.LogFacade.xlog_build",
    "Verif.LogFacade.builds_agree",
    "Verif.LogFacade.hex_builds_differ",
    "Verif.LogFacade.func_builds_differ",
    "Verif.LogFacade.nul_builds_differ",
    "Verif.LogFacade.Redirect.redirect_agrees",
    "Verif.LogFacade.Redirect.redirect_builds_differ"
   ],
   "note": "printf's expansion of the format is an input; one thread; malloc succeeds; no configuring calls but the facade's."
  },
  {
   "property": "C11",
   "status": "proved",
   "theorems": [
    "Verif.MsgQueue.refines_fifo",
    "Verif.MsgQueue.retry_succeeds"
   ],
   "note": ""
  },
  {
   "property": "C12",
   "status": "partial",
   "theorems": [
    "Verif.MsgQueue.pop_size_exact_partial",
    "Verif.MsgQueue.pop_size_not_reported",
    "Verif.MsgQueue.pop_size_witness"
   ],
   "note": "code does not update *msg_size_p on success: negation proved; holds only for exactly fitting buffers"
  },
  {
   "property": "C13",
   "status": "proved",
   "theorems": [
    "Verif.MsgSpsc.no_tearing",
    "Verif.MsgSpsc.no_crash",
    "Verif.MsgSpsc.idle_holds_rest",
    "Verif.MsgSpsc.pop_answers",
    "Verif.MsgSpsc.push_program_seq",
    "Verif.MsgSpsc.pop_program_seq"
   ],
   "note": "sequentially consistent memory; AGAIN is proved unreachable with one producer/consumer"
  },
  {
   "property": "C14",
   "status": "proved",
   "theorems": [
    "Verif.AutoCover.write_keeps_newest",
    "Verif.AutoCover.refines_window",
    "Verif.AutoCover.write_over_capacity_aborts"
   ],
   "note": "writes longer than the capacity abort the process (proved)"
  },
  {
   "property": "C15",
   "status": "proved",
   "theorems": [
    "Verif.AutoCover.read_at_position",
    "Verif.AutoCover.refines_window"
   ],
   "note": ""
  },
  {
   "property": "C16",
   "status": "partial",
   "theorems": [
    "Verif.AutoCover.stale_covered_partial",
    "Verif.AutoCover.full_never_covered",
    "Verif.AutoCover.position_alias",
    "Verif.AutoCover.stale_read_wrong_data"
   ],
   "note": "the claim is false of the code for older stale positions: they alias newer bytes; negation proved with witness"
  },
  {
   "property": "C17",
   "status": "proved",
   "theorems": [
    "Verif.Hashmap.history_is_finite_map",
    "Verif.Hashmap.put_get",
    "Verif.Hashmap.create_terminates",
    "Verif.Hashmap.lock_discipline"
   ],
   "note": "any hash function, any equivalence compatible with it, any allocation failures"
  },
  {
   "property": "C18",
   "status": "proved",
   "theorems": [
    "Verif.Hashmap.size_counts_distinct_keys",
    "Verif.Hashmap.put_nomem_unchanged",
    "Verif.Hashmap.growth_invisible"
   ],
   "note": ""
  },
  {
   "property": "C19",
   "status": "proved",
   "theorems": [
    "Verif.Hashmap.value_ledger",
    "Verif.Hashmap.key_ledger",
    "Verif.Hashmap.free_releases_all",
    "Verif.Hashmap.callbacks_sane"
   ],
   "note": "note: put/remove return the old value after passing it to the free callback, i.e. a dangling pointer when a value-free callback is installed"
  },
  {
   "property": "C20",
   "status": "partial",
   "theorems": [
    "Verif.Hashmap.foreach_visits_each_once_partial",
    "Verif.Hashmap.foreach_at_most_once_partial",
    "Verif.Hashmap.foreach_does_not_stop"
   ],
   "note": "the second half is false of the code: after a callback returns false the iteration goes on with the next bucket; negation proved with a reachable witness"
  },
  {
   "property": "C21",
   "status": "proved",
   "theorems": [
    "Verif.CList.history_is_sequence",
    "Verif.CList.walk_in_order",
    "Verif.CList.foreach_stops",
    "Verif.CList.foreach_remove_current_safe"
   ],
   "note": "pointer-level model: node heap with use-after-free detection"
  },
  {
   "property": "C22",
   "status": "proved",
   "theorems": [
    "Verif.CList.free_callback_exactly_once",
    "Verif.CList.live_nodes_exact",
    "Verif.CList.no_callback_no_free",
    "Verif.CList.foreach_remove_current_safe"
   ],
   "note": ""
  },
  {
   "property": "C23",
   "status": "proved",
   "theorems": [
    "Verif.CArray.append_at_stable",
    "Verif.CArray.failed_append_unchanged",
    "Verif.CArray.append_with_room",
    "Verif.CArray.append_value_low_bytes",
    "Verif.CArray.append_value_overread",
    "Verif.CArray.create_overflow_unsafe"
   ],
   "note": "precondition: element_size > 0 and the initial storage size does not overflow size_t (create_overflow_unsafe shows what happens otherwise)"
  },
  {
   "property": "C24",
   "status": "proved",
   "theorems": [
    "Verif.Base64.roundtrip",
    "Verif.Base64.spec_roundtrip"
   ],
   "note": "inputs of one byte are refused by the code (encode_short)"
  },
  {
   "property": "C25",
   "status": "proved",
   "theorems": [
    "Verif.Base64.encode_spec",
    "Verif.Base64.encode_short",
    "Verif.Base64.encode_chars",
    "Verif.Base64.encodeBufSize_exact",
    "Verif.Base64.decode_spec",
    "Verif.Base64.decodeBufSize_enough"
   ],
   "note": "int results exact below 2^31"
  },
  {
   "property": "C26",
   "status": "proved",
   "theorems": [
    "Verif.Url.roundtrip",
    "Verif.Url.decodes_encode",
    "Verif.Url.encode_alphabet"
   ],
   "note": ""
  },
  {
   "property": "C27",
   "status": "proved",
   "theorems": [
    "Verif.Url.encode_fits",
    "Verif.Url.encode_too_small",
    "Verif.Url.encode_refused",
    "Verif.Url.encode_length_le",
    "Verif.Url.decode_spec",
    "Verif.Url.decode_complete",
    "Verif.Url.decode_refused",
    "Verif.Url.decoded_length_le",
    "Verif.Url.decodes_unique"
   ],
   "note": "a too small decode buffer yields the fitting prefix and last_src_pos, as stated in the property"
  },
  {
   "property": "C28",
   "status": "proved",
   "theorems": [
    "Verif.Strings.strlcpy_spec",
    "Verif.Strings.strlcat_spec",
    "Verif.Strings.strlcat_string",
    "Verif.Strings.strndup_spec",
    "Verif.Strings.strndup_array"
   ],
   "note": ""
  },
  {
   "property": "C29",
   "status": "proved",
   "theorems": [
    "Verif.Strings.strreplace_spec",
    "Verif.Strings.strreplace_empty_pattern_diverges"
   ],
   "note": "the empty pattern, excluded by the property, never terminates (proved)"
  },
  {
   "property": "C30",
   "status": "proved",
   "theorems": [
    "Verif.Strings.strsplit_spec",
    "Verif.Strings.strsplit_count",
    "Verif.Strings.strtrim_spec"
   ],
   "note": ""
  },
  {
   "property": "C31",
   "status": "proved",
   "theorems": [
    "Verif.Strings.strutf8len_spec",
    "Verif.Strings.strnutf8len_spec",
    "Verif.Strings.strnutf8len_overread"
   ],
   "note": "strnutf8len needs one readable byte behind its limit (strnutf8len_overread)"
  },
  {
   "property": "C32",
   "status": "partial",
   "theorems": [
    "Verif.Strings.char2hex_exact_partial",
    "Verif.Strings.char2hex_spec",
    "Verif.Strings.char2hex_advised_capacity_loses_digit",
    "Verif.Strings.char2hex_truncation_overflows"
   ],
   "note": "false of the code when the output is truncated: char2hex_truncation_overflows proves an out-of-bounds write for every such call; proved in full for capacities >= 3*count+2"
  },
  {
   "property": "C33",
   "status": "proved",
   "theorems": [
    "Verif.StringBuilder.history_concatenates",
    "Verif.StringBuilder.to_string_is_text",
    "Verif.StringBuilder.append_succeeds",
    "Verif.StringBuilder.failed_append_unchanged",
    "Verif.StringBuilder.appendf_error_drops_char",
    "Verif.StringBuilder.appendf_error_overflow"
   ],
   "note": "arbitrary allocator answers; formats that expand (a failing vsnprintf drops a character or writes out of bounds: appendf_error_*)"
  },
  {
   "property": "C34",
   "status": "proved",
   "theorems": [
    "Verif.StrParams.history_is_string_map",
    "Verif.StrParams.add_then_get",
    "Verif.StrParams.del_then_get",
    "Verif.StrParams.add_growth_failure_uaf"
   ],
   "note": "all histories in which growing the table does not run out of memory; add_growth_failure_uaf proves that such a failure leaves a freed key in the map"
  },
  {
   "property": "C35",
   "status": "proved",
   "theorems": [
    "Verif.StrParams.text_round_trip",
    "Verif.StrParams.to_str_lists_pairs",
    "Verif.StrParams.create_str_parses",
    "Verif.StrParams.create_str_leaks"
   ],
   "note": "delimiter other than '=' and NUL; memory requests of create_str/to_str succeed (the code does not check them)"
  },
  {
   "property": "C36",
   "status": "proved",
   "theorems": [
    "Verif.StrParams.long_round_trip",
    "Verif.StrParams.add_long_succeeds",
    "Verif.StrParams.int_round_trip",
    "Verif.StrParams.get_int_truncates",
    "Verif.StrParams.get_long_text",
    "Verif.StrParams.int_unique",
    "Verif.StrParams.get_long_saturates"
   ],
   "note": "strtol(.., 0) of the C library is modelled"
  },
  {
   "property": "C37",
   "status": "proved",
   "theorems": [
    "Verif.Mplite.mplite_blocks",
    "Verif.Mplite.mplite_never_faults",
    "Verif.Mplite.mplite_contents",
    "Verif.Mplite.mplite_init_runs",
    "Verif.Mplite.mplite_size_exact",
    "Verif.Mplite.mplite_roundup_exact",
    "Verif.Mplite.mplite_fit_bounds",
    "Verif.Mplite.mplite_realloc_result",
    "Verif.Mplite.mplite_resize_exact",
    "Verif.Mplite.release_free",
    "Verif.Mplite.release_interior",
    "Verif.Mplite.debug_interior",
    "Verif.Mplite.release_double_free"
   ],
   "note": "the ASSERTs never fail, so release builds do the same (release_free); there a wrong pointer or a second free goes unnoticed (release_interior, release_double_free); byte-level model, all histories of malloc/calloc/realloc/free and client stores inside held blocks; min_alloc up to 2^30 (above it init is undefined)"
  },
  {
   "property": "C38",
   "status": "proved",
   "theorems": [
    "Verif.Mplite.mplite_freemem_exact",
    "Verif.Mplite.mplite_all_freed"
   ],
   "note": ""
  },
  {
   "property": "C39",
   "status": "proved",
   "theorems": [
    "Verif.Mplite.mplite_stats_exact"
   ],
   "note": "64-bit counters modulo 2^64"
  },
  {
   "property": "C40",
   "status": "proved",
   "theorems": [
    "Verif.Mplite.mplite_malloc_null_iff",
    "Verif.Mplite.mplite_calloc_null_iff",
    "Verif.Mplite.mplite_maxmem_exact"
   ],
   "note": "exact characterisation, both directions"
  },
  {
   "property": "C41",
   "status": "proved",
   "theorems": [
    "Verif.Allocator.leak_report_exact",
    "Verif.Allocator.records_released",
    "Verif.Allocator.free_outcome",
    "Verif.Allocator.foreign_free_aborts",
    "Verif.Allocator.free_and_reset_spec",
    "Verif.Allocator.free_and_reset_twice",
    "Verif.Allocator.blocks_apart",
    "Verif.Allocator.correct_client_sees_heap",
    "Verif.Allocator.huge_malloc_overruns",
    "Verif.Allocator.calloc_overflow_succeeds",
    "Verif.Allocator.untracked_block_cannot_be_freed"
   ],
   "note": "all single-threaded histories of arbitrary clients (stray writes included) from allocation_tracker_init on, sizes + 16 not overflowing size_t, table entries granted; correct clients never abort. Recorded faults outside these limits are separate theorems"
  },
  {
   "property": "C42",
   "status": "partial",
   "theorems": [
    "Verif.Allocator.realloc_keeps_contents_partial",
    "Verif.Allocator.realloc_untracked_copies_nothing",
    "Verif.Allocator.realloc_untracked_loses_contents",
    "Verif.Allocator.huge_realloc_overruns"
   ],
   "note": "proved while the tracker is on; false while it is off: realloc_untracked_copies_nothing proves that no byte is ever copied then"
  },
  {
   "property": "C43",
   "status": "proved",
   "theorems": [
    "Verif.IniParser.history",
    "Verif.IniParser.put_then_get",
    "Verif.IniParser.put_out_of_memory"
   ],
   "note": "names up to 63 and values up to 255 characters (the arrays), sections and keys given (a NULL section is undefined in the code); histories that do not delete the section created last (see C44); arbitrary allocation failures of a put included"
  },
  {
   "property": "C44",
   "status": "partial",
   "theorems": [
    "Verif.IniParser.delete_precise_partial",
    "Verif.IniParser.delete_recent_section"
   ],
   "note": "proved unless the section created last is deleted; then the claim is false: delete_recent_section proves that every later call uses freed memory"
  },
  {
   "property": "C45",
   "status": "proved",
   "theorems": [
    "Verif.IniParser.dump_parse_round_trip"
   ],
   "note": "every key/value, and the sections that have a key, and the foreach order; sections without keys are lost by the code. Names/values free of syntax characters and within reader limits (section 49, key+value 194); memory available"
  },
  {
   "property": "C46",
   "status": "proved",
   "theorems": [
    "Verif.IniReader.parseString_spec",
    "Verif.IniReader.lines_whole",
    "Verif.IniReader.lines_complete",
    "Verif.IniReader.error_is_first",
    "Verif.IniReader.isSpace_iff",
    "Verif.IniReader.classify_blank",
    "Verif.IniReader.classify_comment",
    "Verif.IniReader.classify_section",
    "Verif.IniReader.classify_pair",
    "Verif.IniReader.section_names_cut"
   ],
   "note": "every text (also with longer lines, which the reader splits) and every handler; buffers never left. Quirk of the code kept in the specification: a name without value after an error is not reported"
  },
  {
   "property": "C47",
   "status": "proved",
   "theorems": [
    "Verif.FileUtil.write_transfers",
    "Verif.FileUtil.write_all",
    "Verif.FileUtil.read_transfers",
    "Verif.FileUtil.read_all_available",
    "Verif.FileUtil.huge_write_reports_nothing",
    "Verif.FileUtil.write_huge_undefined"
   ],
   "note": "counts below 2^31 (above, see huge_write_reports_nothing); any answers of the system"
  },
  {
   "property": "C48",
   "status": "partial",
   "theorems": [
    "Verif.FileUtil.append_slash_partial",
    "Verif.FileUtil.append_slash_in_bounds",
    "Verif.FileUtil.append_slash_exact",
    "Verif.FileUtil.trailing_spaces_break_append_slash",
    "Verif.FileUtil.mixed_slashes_get_two",
    "Verif.FileUtil.full_buffer_loses_last_character",
    "Verif.FileUtil.unterminated_path_is_undefined"
   ],
   "note": "termination inside the buffer for all paths, exact result for all paths; ends in a separator proved for paths without trailing spaces, false with them (witness)"
  },
  {
   "property": "C49",
   "status": "partial",
   "theorems": [
    "Verif.TimeUtil.second2date_correct_partial",
    "Verif.TimeUtil.civil_time_unique",
    "Verif.TimeUtil.second2date_fields",
    "Verif.TimeUtil.year_2038_is_wrong",
    "Verif.TimeUtil.before_1970_hour_negative"
   ],
   "note": "proved for all seconds in 0..2^31-1 and all zones with local time not before 1970; false outside (theorems)"
  },
  {
   "property": "C50",
   "status": "proved",
   "theorems": [
    "Verif.TimeUtil.cached_calls_right",
    "Verif.TimeUtil.uncached_right",
    "Verif.TimeUtil.two_steps_return",
    "Verif.TimeUtil.epoch_second_hits_empty_cache"
   ],
   "note": "critical sections atomic (rwlock); at the epoch second itself the claim is false (theorem)"
  },
  {
   "property": "C51",
   "status": "proved",
   "theorems": [
    "Verif.MsgHandler.delivered_in_order",
    "Verif.MsgHandler.no_lost_wakeup",
    "Verif.MsgHandler.asleep_all_delivered",
    "Verif.MsgHandler.drains",
    "Verif.MsgHandler.stopped_delivers_nothing",
    "Verif.MsgHandler.gone_refuses",
    "Verif.MsgHandler.refused_only_when_stopped",
    "Verif.MsgHandler.destroy_joins",
    "Verif.MsgHandler.no_undefined_shift",
    "Verif.MsgHandler.message_fits",
    "Verif.MsgHandler.roundup_sufficient",
    "Verif.MsgHandler.roundup_smallest",
    "Verif.MsgHandler.handled_fair",
    "Verif.MsgHandler.all_handled_fair",
    "Verif.MsgHandler.push_returns_fair",
    "Verif.MsgHandler.destroy_joins_fair",
    "Verif.MsgHandler.fair_demo"
   ],
   "note": "progress theorems need a queue of at most 2^30 bytes (int shift in pri_roundup_power2); one pushing thread at a time as the header demands; the _fair theorems hold in every infinite execution in which the worker is scheduled weakly fairly (callbacks return)"
  },
  {
   "property": "C52",
   "status": "proved",
   "theorems": [
    "Verif.FixedHandler.delivered_in_order",
    "Verif.FixedHandler.asleep_handled",
    "Verif.FixedHandler.asleep_all",
    "Verif.FixedHandler.clear_drops",
    "Verif.FixedHandler.clear_keeps",
    "Verif.FixedHandler.drains",
    "Verif.FixedHandler.stopped_delivers_nothing",
    "Verif.FixedHandler.gone_refuses",
    "Verif.FixedHandler.refused_only_when_stopped",
    "Verif.FixedHandler.destroy_joins",
    "Verif.FixedHandler.handled_fair",
    "Verif.FixedHandler.all_handled_fair",
    "Verif.FixedHandler.push_returns_fair",
    "Verif.FixedHandler.destroy_joins_fair",
    "Verif.FixedHandler.fair_demo"
   ],
   "note": "clear() may run at any time, also mid-push; calls of clear do not overlap each other; fewer than 2^64-1 messages (size_t token); the _fair theorems hold in every infinite execution in which the worker is scheduled weakly fairly (callbacks return)"
  },
  {
   "property": "C53",
   "status": "proved",
   "theorems": [
    "Verif.Thpool.no_undefined",
    "Verif.Thpool.fifo",
    "Verif.Thpool.called_at_most_once",
    "Verif.Thpool.no_job_lost",
    "Verif.Thpool.one_worker_in_order",
    "Verif.Thpool.no_lost_wakeup",
    "Verif.Thpool.all_asleep_all_done",
    "Verif.Thpool.every_job_executed",
    "Verif.Thpool.working_counts",
    "Verif.Thpool.every_job_executed_fair",
    "Verif.Thpool.add_work_returns_fair",
    "Verif.Thpool.fair_demo"
   ],
   "note": "sequentially consistent; pause/resume (signals) not modelled; progress assumes that job functions return; the liveness theorems hold in every strongly fair infinite execution, whatever calls arrive"
  },
  {
   "property": "C54",
   "status": "proved",
   "theorems": [
    "Verif.Thpool.wait_returns_after_done",
    "Verif.Thpool.single_waiter_returns",
    "Verif.Thpool.two_waiters_one_hangs"
   ],
   "note": "that the call returns at all is proved for one waiting thread; with two waiting threads one may hang (theorem)"
  },
  {
   "property": "C55",
   "status": "proved",
   "theorems": [
    "Verif.Mcs.mutual_exclusion",
    "Verif.Mcs.fifo",
    "Verif.Mcs.ent_log",
    "Verif.Mcs.arr_log",
    "Verif.Mcs.memory_safe",
    "Verif.Mcs.no_deadlock",
    "Verif.Mcs.drains_bounded",
    "Verif.Mcs.drained",
    "Verif.Mcs.all_served",
    "Verif.Mcs.try_free",
    "Verif.Mcs.try_busy",
    "Verif.Mcs.late_write",
    "Verif.Mcs.reuse_crashes",
    "Verif.Mcs.acquire_gets_lock",
    "Verif.Mcs.every_acquire_returns",
    "Verif.Mcs.every_release_returns",
    "Verif.Mcs.fair_demo"
   ],
   "note": "sequentially consistent; under the stated premise on node reuse, which is necessary (reuse_crashes: two threads reach a null dereference) and which release does not ensure (late_write); ptw32_mcs_node_transfer not modelled"
  },
  {
   "property": "C56",
   "status": "proved",
   "theorems": [
    "Verif.Rwlock.writer_exclusive",
    "Verif.Rwlock.readers_share",
    "Verif.Rwlock.asserts_hold",
    "Verif.Rwlock.writers_preferred",
    "Verif.Rwlock.reader_enters_iff",
    "Verif.Rwlock.writer_enters_iff",
    "Verif.Rwlock.no_deadlock",
    "Verif.Rwlock.drains_bounded",
    "Verif.Rwlock.drained",
    "Verif.Rwlock.initialised_once",
    "Verif.Rwlock.readers_starve",
    "Verif.Rwlock.writer_gets_lock",
    "Verif.Rwlock.reader_gets_lock",
    "Verif.Rwlock.Lazy.lazy_defined",
    "Verif.Rwlock.Lazy.lazy_one_object",
    "Verif.Rwlock.Lazy.lazy_results",
    "Verif.Rwlock.Lazy.lazy_progress",
    "Verif.Rwlock.Lazy.pso_uses_unfinished"
   ],
   "note": "lazy initialisation also with store buffers (x86) and failing calloc/CreateMutex/CreateEvent; it breaks where stores may become visible in another order (pso_uses_unfinished); waits do not fail, only holders unlock; readers can starve (theorem) while writers keep coming; writers never (fair infinite executions)"
  },
  {
   "property": "C57",
   "status": "proved",
   "theorems": [
    "Verif.Xlog.setter_ranges",
    "Verif.Xlog.set_defined",
    "Verif.Xlog.configured_ok",
    "Verif.Xlog.line_delivered",
    "Verif.Xlog.filtered",
    "Verif.Xlog.on_console_iff",
    "Verif.Xlog.bad_format",
    "Verif.Xlog.hex_delivered",
    "Verif.Xlog.long_function_name_overflows",
    "Verif.Xlog.auto_level_up_unchecked",
    "Verif.Xlog.hex_overflow",
    "Verif.Xlog.tid_ambiguous",
    "Verif.Xlog.demo_configured",
    "Verif.Xlog.demo_print",
    "Verif.Xlog.demo_premises"
   ],
   "note": "non-Android build, mutex initialised; function names that fit the 512-byte buffer, trigger level at most 6, hexadecimal messages of at most 170 bytes (the excluded cases are theorems)"
  },
  {
   "property": "C58",
   "status": "proved",
   "theorems": [
    "Verif.FileUtil.mkdirs_eq",
    "Verif.FileUtil.mkdirs_success",
    "Verif.FileUtil.mkdirs_too_long",
    "Verif.FileUtil.path_of_256_is_undefined"
   ],
   "note": "paths up to 255 characters; 256 is undefined in the code (proved)"
  },
  {
   "property": "C59",
   "status": "proved",
   "theorems": [
    "Verif.FileUtil.read_txt_delivers",
    "Verif.FileUtil.pieces_flatten",
    "Verif.FileUtil.pieces_shape",
    "Verif.FileUtil.read_txt_no_file"
   ],
   "note": ""
  },
  {
   "property": "C60",
   "status": "proved",
   "theorems": [
    "Verif.FileUtil.read_all_exact",
    "Verif.FileUtil.read_all_failures"
   ],
   "note": ""
  },
  {
   "property": "C61",
   "status": "proved",
   "theorems": [
    "Verif.FixedSpsc.no_tearing",
    "Verif.FixedSpsc.popped_size",
    "Verif.FixedSpsc.no_crash",
    "Verif.FixedSpsc.idle_holds_rest",
    "Verif.FixedSpsc.push_program_seq",
    "Verif.FixedSpsc.pop_program_seq"
   ],
   "note": ""
  },
  {
   "property": "C62",
   "status": "proved",
   "theorems": [
    "Verif.Thpool.destroy_waits",
    "Verif.Thpool.destroy_can_finish",
    "Verif.Thpool.destroy_ends_fair",
    "Verif.Thpool.destroy_demo",
    "Verif.Thpool.destroy_frees_a_locked_mutex"
   ],
   "note": "destroy not concurrent with add_work/wait; the pool is freed while the last worker may still hold thcount_lock (theorem)"
  },
  {
   "property": "C63",
   "status": "proved",
   "theorems": [
    "Verif.Cond.returns_locked",
    "Verif.Cond.wait_is_atomic",
    "Verif.Cond.signal_promises",
    "Verif.Cond.broadcast_promises",
    "Verif.Cond.woken_le_promised",
    "Verif.Cond.woken_was_notified",
    "Verif.Cond.gen_counts",
    "Verif.Cond.no_lost_wakeup",
    "Verif.Cond.broadcast_wakes_all",
    "Verif.Cond.can_deliver",
    "Verif.Cond.stolen_broadcast",
    "Verif.Cond.stolen_signal",
    "Verif.Cond.promises_kept",
    "Verif.Cond.woken_returns",
    "Verif.Cond.broadcast_all_return",
    "Verif.Cond.equal_counters",
    "Verif.Cond.garbage_wakes_nobody",
    "Verif.Cond.garbage_waits_for_ever",
    "Verif.Cond.garbage_spins"
   ],
   "note": "true if mWaiting = mWake initially (equal_counters); pthread_cond_init does not set them, and with garbage there no thread may ever be woken (garbage_wakes_nobody, garbage_waits_for_ever); a later waiter can take a wake-up meant for an earlier one (theorems)"
  },
  {
   "property": "C64",
   "status": "proved",
   "theorems": [
    "Verif.ThreadLife.memory_safe",
    "Verif.ThreadLife.calls_succeed",
    "Verif.ThreadLife.join_result",
    "Verif.ThreadLife.detach_releases",
    "Verif.ThreadLife.id_stays_valid",
    "Verif.ThreadLife.create_fails",
    "Verif.ThreadLife.critical_sections",
    "Verif.ThreadLife.drains_bounded",
    "Verif.ThreadLife.drained",
    "Verif.ThreadLife.create_returns",
    "Verif.ThreadLife.detach_returns",
    "Verif.ThreadLife.join_returns",
    "Verif.ThreadLife.detached_released"
   ],
   "note": "in every fair infinite execution with any number of threads create and detach return, join returns once that thread's start function has (others may run for ever), and a detached thread that ends leaves nothing behind; ptw32_thread_reuse_lock taken as a mutual exclusion lock; malloc and CreateThread may fail; join/detach at most once per id"
  },
  {
   "property": "C65",
   "status": "proved",
   "theorems": [
    "Verif.FileLogger.init_ok",
    "Verif.FileLogger.init_refuses",
    "Verif.FileLogger.log_spec",
    "Verif.FileLogger.files_complete",
    "Verif.FileLogger.all_kept",
    "Verif.FileLogger.end_to_end",
    "Verif.FileLogger.isObj_content",
    "Verif.FileLogger.handle_open_fails",
    "Verif.FileLogger.handle_empty",
    "Verif.FileLogger.huge_message_overflows",
    "Verif.FileLogger.same_millisecond_overwrites",
    "Verif.FileLogger.nul_cuts",
    "Verif.FileLogger.deinit_drops",
    "Verif.FileLogger.queue_size_wraps",
    "Verif.FileLogger.cache_init",
    "Verif.FileLogger.demoCfg_ok",
    "Verif.FileLogger.demoEnv_ok",
    "Verif.FileLogger.demo_isMsg"
   ],
   "note": "fopen and fprintf succeed in the main statement (a failed fopen drops the message: handle_open_fails); lock callbacks provide the serialisation of log calls; exceptions are theorems"
  },
  {
   "property": "C66",
   "status": "proved",
   "theorems": [
    "Verif.HashFn.integer_defined",
    "Verif.HashFn.integer_injective",
    "Verif.HashFn.naive_injective",
    "Verif.HashFn.string_short",
    "Verif.HashFn.poly_closed",
    "Verif.HashFn.string_overflows",
    "Verif.HashFn.wrapString_poly",
    "Verif.HashFn.string_collision"
   ],
   "note": "LP64; overflow for strings of four or more characters is a finding (theorem)"
  },
  {
   "property": "C67",
   "status": "proved",
   "theorems": [
    "Verif.TimeRfc.rfc1123_text",
    "Verif.TimeRfc.rfc2822_text",
    "Verif.TimeRfc.rfc2822utc_text",
    "Verif.TimeRfc.refused",
    "Verif.TimeRfc.rfc1123_year_10000",
    "Verif.TimeRfc.rfc2822_year_10000",
    "Verif.TimeRfc.sample_local",
    "Verif.TimeRfc.sample_text",
    "Verif.TimeRfc.gmtime_exists"
   ],
   "note": "gmtime_r by its contract, strftime modelled for the conversions used in the C locale; the years outside are a theorem"
  },
  {
   "property": "C68",
   "status": "proved",
   "theorems": [
    "Verif.FileIter.foreach_visits",
    "Verif.FileIter.foreach_refused",
    "Verif.FileIter.path_exact",
    "Verif.FileIter.visits_prefix",
    "Verif.FileIter.visits_all",
    "Verif.FileIter.unreadable_ends",
    "Verif.FileIter.path_cut"
   ],
   "note": "the file system does not change during the call; the two exceptions are theorems"
  },
  {
   "property": "C69",
   "status": "proved",
   "theorems": [
    "Verif.WinSem.conservation",
    "Verif.WinSem.never_too_many",
    "Verif.WinSem.nothing_lost",
    "Verif.WinSem.blocks_iff",
    "Verif.WinSem.no_lost_wakeup",
    "Verif.WinSem.results",
    "Verif.WinSem.getvalue_value",
    "Verif.WinSem.drains",
    "Verif.WinSem.getvalue_steals",
    "Verif.WinSem.getvalue_loses",
    "Verif.WinSem.demo",
    "Verif.WinSem.quick_returns",
    "Verif.WinSem.stuck_only_if_all_taken",
    "Verif.WinSem.wait_returns",
    "Verif.WinSem.wait_returns_posts"
   ],
   "note": "valid handles; kernel calls atomic; the two effects of getvalue are theorems"
  },
  {
   "property": "C70",
   "status": "proved",
   "theorems": [
    "Verif.WinSem.open_eq",
    "Verif.WinSem.open_new",
    "Verif.WinSem.open_existing",
    "Verif.WinSem.open_excl",
    "Verif.WinSem.enoent_creates",
    "Verif.WinSem.close_spec",
    "Verif.WinSem.wf_init",
    "Verif.WinSem.wf_open",
    "Verif.WinSem.wf_semClose",
    "Verif.WinSem.initName_inj",
    "Verif.WinSem.semInit_new",
    "Verif.WinSem.semInit_clash",
    "Verif.WinSem.deadline_ms",
    "Verif.WinSem.deadline_past",
    "Verif.WinSem.deadline_far",
    "Verif.WinSem.deadline_finite",
    "Verif.WinSem.demoNs_eq"
   ],
   "note": "kernel name space and handles modelled; %p as printed by the 64-bit Microsoft C library; the exceptions are theorems"
  },
  {
   "property": "C71",
   "status": "proved",
   "theorems": [
    "Verif.Tso.tso_reads_from_stream",
    "Verif.Tso.tso_received_prefix",
    "Verif.Tso.tso_no_ub",
    "Verif.Tso.tso_no_pending_race",
    "Verif.Tso.tso_no_byte_race",
    "Verif.Tso.tso_drained_holds_rest",
    "Verif.Tso.sc_is_tso",
    "Verif.Tso.pso_garbage"
   ],
   "note": "machine with FIFO store buffers; the sequentially consistent runs are included (sc_is_tso); pso_garbage is the negation for store-store reordering. The compiler is assumed to keep the order of a call's stores."
  },
  {
   "property": "C72",
   "status": "proved",
   "theorems": [
    "Verif.MsgTso.tso_no_tearing",
    "Verif.MsgTso.tso_no_crash",
    "Verif.MsgTso.tso_pop_answers",
    "Verif.MsgTso.tso_idle_holds_rest",
    "Verif.MsgTso.pso_torn_message"
   ],
   "note": "programs of C13 on the machine of C71"
  },
  {
   "property": "C73",
   "status": "proved",
   "theorems": [
    "Verif.FixedTso.tso_no_tearing",
    "Verif.FixedTso.tso_popped_size",
    "Verif.FixedTso.tso_no_crash",
    "Verif.FixedTso.tso_idle_holds_rest",
    "Verif.FixedTso.pso_torn_message"
   ],
   "note": "programs of C61 on the machine of C71"
  },
  {
   "property": "C74",
   "status": "proved",
   "theorems": [
    "Verif.Slog.level",
    "Verif.Slog.log_spec",
    "Verif.Slog.logTrace_spec",
    "Verif.Slog.wanted_mono",
    "Verif.Slog.off_silent",
    "Verif.Slog.hex_spec",
    "Verif.Slog.hex_85",
    "Verif.Slog.hex_overflow",
    "Verif.Slog.redirect",
    "Verif.Slog.back_undefined",
    "Verif.Slog.failed_redirect_undefined"
   ],
   "note": "positive part for the tame histories, the rest are findings proved as negations; the expansion of the user's format is an input"
  },
  {
   "property": "C75",
   "status": "proved",
   "theorems": [
    "Verif.Portable.life_cycle",
    "Verif.Portable.handle_valid",
    "Verif.Portable.use_spec",
    "Verif.Portable.null_spec",
    "Verif.Portable.unlock_null",
    "Verif.Portable.destroy_spec",
    "Verif.Portable.init_spec",
    "Verif.Portable.create_trace",
    "Verif.Portable.join_spec",
    "Verif.Portable.join_failed_dangles",
    "Verif.Portable.defined",
    "Verif.Portable.no_leak",
    "Verif.Portable.reinit_leaks"
   ],
   "note": "the primitives' behaviour is an input (their answers); wrapper addresses are not reused in the model"
  },
  {
   "property": "C76",
   "status": "proved",
   "theorems": [
    "Verif.IniTyped.get_missing",
    "Verif.IniTyped.get_null",
    "Verif.IniTyped.get_empty",
    "Verif.IniTyped.get_integer",
    "Verif.IniTyped.get_integer_clobbers",
    "Verif.IniTyped.get_bool",
    "Verif.IniTyped.get_floating",
    "Verif.IniTyped.put_decimal_get",
    "Verif.IniTyped.get_int_truncates",
    "Verif.IniTyped.has_spec",
    "Verif.IniTyped.save_parse_file",
    "Verif.IniTyped.save_refused",
    "Verif.IniTyped.save_failed_destroys",
    "Verif.IniTyped.save_empty_document",
    "Verif.IniTyped.save_ignores_fwrite",
    "Verif.IniTyped.parse_file_spec",
    "Verif.IniTyped.is_file_path_spec",
    "Verif.IniTyped.is_file_path_defined",
    "Verif.IniTyped.is_file_path_utf8"
   ],
   "note": "strtod/strtof are arbitrary functions; the claim does not promise that failing integer getters leave the output alone (they do not)"
  },
  {
   "property": "C77",
   "status": "proved",
   "theorems": [
    "Verif.ThpoolPause.held_until_release",
    "Verif.ThpoolPause.pause_stops_all",
    "Verif.ThpoolPause.resume_frees_all",
    "Verif.ThpoolPause.pause_precise",
    "Verif.ThpoolPause.resume_lost",
    "Verif.ThpoolPause.release_is_global",
    "Verif.ThpoolPause.pause_holds_mutex",
    "Verif.ThpoolPause.destroy_paused_hangs"
   ],
   "note": "sequential consistency; SIGUSR1 delivery as POSIX standard signals"
  },
  {
   "property": "C78",
   "status": "proved",
   "theorems": [
    "Verif.Dlfcn.history",
    "Verif.Dlfcn.no_leak",
    "Verif.Dlfcn.default_public",
    "Verif.Dlfcn.exec_step",
    "Verif.Dlfcn.saveErr_spec",
    "Verif.Dlfcn.ptr_text",
    "Verif.Dlfcn.close_exposes",
    "Verif.Dlfcn.no_list_exposes"
   ],
   "note": "Windows' loader is a list of modules with reference counts whose choices are arbitrary; dladdr not modelled"
  },
  {
   "property": "C79",
   "status": "proved",
   "theorems": [
    "Verif.XlogMt.threads_conform",
    "Verif.XlogMt.one_thread_conforms",
    "Verif.XlogMt.callback_pair",
    "Verif.XlogMt.silent_when_off",
    "Verif.XlogMt.global_values",
    "Verif.XlogMt.every_call_returns",
    "Verif.XlogMt.callback_deadlock",
    "Verif.XlogMt.line_after_off",
    "Verif.XlogMt.mixed_callback_without_init",
    "Verif.XlogMt.init_during_call",
    "Verif.XlogMt.cleanup_during_call",
    "Verif.XlogMt.cleanup_before_lock",
    "Verif.XlogMt.demo",
    "Verif.XlogMt.Redirect.redirect_defined_iff",
    "Verif.XlogMt.Redirect.redirect_lines",
    "Verif.XlogMt.Redirect.redirect_cases"
   ],
   "note": "refinement: every observation sequence of the transition system is one of the specification automaton; redirection as a sequential model"
  },
  {
   "property": "C80",
   "status": "proved",
   "theorems": [
    "Verif.VersCmp.strverscmp_spec",
    "Verif.VersCmp.zero_iff",
    "Verif.VersCmp.antisymm",
    "Verif.VersCmp.transitive",
    "Verif.VersCmp.numbers_by_value",
    "Verif.VersCmp.numbers_demo",
    "Verif.VersCmp.agrees_with_gnu",
    "Verif.VersCmp.differs_from_gnu",
    "Verif.VersCmp.non_ascii_undefined",
    "Verif.VersCmp.demo"
   ],
   "note": "equality with an automaton over the common part of both strings; order laws by a key"
  },
  {
   "property": "C81",
   "status": "proved",
   "theorems": [
    "Verif.Dirent.streams_conform",
    "Verif.Dirent.reads_all",
    "Verif.Dirent.seek_tell",
    "Verif.Dirent.seek_tell_end",
    "Verif.Dirent.name_exact",
    "Verif.Dirent.rewind_after_seek_end",
    "Verif.Dirent.seek_collision",
    "Verif.Dirent.long_name_cut",
    "Verif.Dirent.null_undefined",
    "Verif.Dirent.cwd_race",
    "Verif.Dirent.demo_run",
    "Verif.Dirent.demo_legal"
   ],
   "note": "Full for the modelled code. The specification states the code's own behaviour where it departs from POSIX (a rewinddir after a failed seekdir stays at the end; hashes as positions); these departures are proved separately as findings."
  },
  {
   "property": "C82",
   "status": "proved",
   "theorems": [
    "Verif.Dirent.scandir_spec",
    "Verif.Dirent.scandir_ok",
    "Verif.Dirent.release",
    "Verif.Dirent.scandir_null",
    "Verif.Dirent.scan_demo",
    "Verif.Dirent.null_compare",
    "Verif.Dirent.insertSort_ok",
    "Verif.Dirent.byName_order"
   ],
   "note": "Full for the modelled code: the filter and compare functions are pure."
  },
  {
   "property": "C83",
   "status": "proved",
   "theorems": [
    "Verif.Dladdr.dladdr_spec",
    "Verif.Dladdr.symbol_unique",
    "Verif.Dladdr.target_unique",
    "Verif.Dladdr.dladdr_null",
    "Verif.Dladdr.demo_sane",
    "Verif.Dladdr.demo_plain",
    "Verif.Dladdr.demo_thunk",
    "Verif.Dladdr.alias_unnamed",
    "Verif.Dladdr.slot_behind_table",
    "Verif.Dladdr.reserved_undefined",
    "Verif.Dladdr.reserved_exists"
   ],
   "note": "Under `Sane`: memory Windows calls valid can be read, and module handles denote mapped PE32+ images (the code assumes both; `reserved_undefined` shows the first assumption is needed)."
  },
  {
   "property": "C84",
   "status": "proved",
   "theorems": [
    "Verif.Global.global_safe",
    "Verif.Global.global_life",
    "Verif.Global.global_counted",
    "Verif.Global.global_balanced",
    "Verif.Global.global_log",
    "Verif.Global.global_time",
    "Verif.Global.demo_ok",
    "Verif.Global.failure_silent",
    "Verif.Global.deinit_takes_lock",
    "Verif.Global.counter_wraps",
    "Verif.Global.Conc.solo_init",
    "Verif.Global.Conc.solo_cleanup",
    "Verif.Global.Conc.concurrent_inits",
    "Verif.Global.Conc.early_return",
    "Verif.Global.Conc.double_creation",
    "Verif.Global.Conc.counter_underflow",
    "Verif.Global.Conc.double_destroy",
    "Verif.Global.Conc.lost_update"
   ],
   "note": "Serial histories in full; concurrent calls: safe only for further initialisations, the counterexamples for the rest are theorems."
  },
  {
   "property": "C85",
   "status": "proved",
   "theorems": [
    "Verif.StrDouble.double_near",
    "Verif.StrDouble.double_exact",
    "Verif.StrDouble.double_tiny",
    "Verif.StrDouble.double_cut",
    "Verif.StrDouble.double_special",
    "Verif.StrDouble.add_double_succeeds",
    "Verif.StrDouble.get_double_absent",
    "Verif.StrDouble.float_round_trip",
    "Verif.StrDouble.get_double_text",
    "Verif.StrDouble.signed_unique",
    "Verif.StrDouble.lib_exists",
    "Verif.StrDouble.demo_values",
    "Verif.StrDouble.demo_text"
   ],
   "note": "Assumes that printf, strtod and the cast to float round to a nearest value (structure CLib, shown consistent by lib_exists), and the C locale."
  },
  {
   "property": "C86",
   "status": "proved",
   "theorems": [
    "Verif.Clock.timeval_exact",
    "Verif.Clock.timeval_mono",
    "Verif.Clock.current_ms_exact",
    "Verif.Clock.current_ms_windows",
    "Verif.Clock.year_2038",
    "Verif.Clock.perf_exact",
    "Verif.Clock.perf_mono",
    "Verif.Clock.perf_slow",
    "Verif.Clock.posix_backwards",
    "Verif.Clock.time_threads",
    "Verif.Clock.first_call",
    "Verif.Clock.null_call",
    "Verif.Clock.perf_threads"
   ],
   "note": "Sequentially consistent threads; the system's clocks themselves are inputs."
  },
  {
   "property": "C87",
   "status": "proved",
   "theorems": [
    "Verif.ThpoolInit.init_pool",
    "Verif.ThpoolInit.init_null",
    "Verif.ThpoolInit.null_returns",
    "Verif.ThpoolInit.init_returns",
    "Verif.ThpoolInit.destroy_all",
    "Verif.ThpoolInit.init_hangs",
    "Verif.ThpoolInit.detach_unset"
   ],
   "note": "The workers' service loop is C53/C54/C62; here they only start."
  },
  {
   "property": "C88",
   "status": "proved",
   "theorems": [
    "Verif.HandlerLife.create_answer",
    "Verif.HandlerLife.create_refused",
    "Verif.HandlerLife.create_returns",
    "Verif.HandlerLife.created_live",
    "Verif.HandlerLife.never_undefined",
    "Verif.HandlerLife.callbacks_in_order",
    "Verif.HandlerLife.stop_is_final",
    "Verif.HandlerLife.push_open",
    "Verif.HandlerLife.destroyed",
    "Verif.HandlerLife.at_most_one_more",
    "Verif.HandlerLife.destroy_returns",
    "Verif.HandlerLife.suicide_undefined",
    "Verif.HandlerLife.no_buffer_no_messages"
   ],
   "note": "Callbacks are assumed to return and, except in suicide_undefined, not to destroy the handler. Pushes concurrent with destroy are not modelled here (use of a handle after destroy began is the user's error). Which messages arrive is C11-C13."
  },
  {
   "property": "C89",
   "status": "proved",
   "theorems": [
    "Verif.ObjLife.ring_life",
    "Verif.ObjLife.ring_idempotent",
    "Verif.ObjLife.ring_with_mem_life",
    "Verif.ObjLife.ring_with_mem_small",
    "Verif.ObjLife.rbuf_life",
    "Verif.ObjLife.rbuf_idempotent",
    "Verif.ObjLife.mq_life",
    "Verif.ObjLife.mq_destroy_twice",
    "Verif.ObjLife.fq_life",
    "Verif.ObjLife.fq_idempotent",
    "Verif.ObjLife.ac_life",
    "Verif.ObjLife.ac_idempotent",
    "Verif.ObjLife.sb_life",
    "Verif.ObjLife.sb_idempotent",
    "Verif.ObjLife.arr_life",
    "Verif.ObjLife.arr_overflow",
    "Verif.ObjLife.ring_with_mem_starts",
    "Verif.ObjLife.ring_starts",
    "Verif.ObjLife.rbuf_starts",
    "Verif.ObjLife.mq_starts",
    "Verif.ObjLife.fq_starts",
    "Verif.ObjLife.sb_starts"
   ],
   "note": "LP64 layout. The operations between construction and destruction enter only through what they may not do (change pointers and flags of the object); that they do not is visible in the models of C03-C16."
  },
  {
   "property": "C90",
   "status": "proved",
   "theorems": [
    "Verif.StrParamsOom.refused_start_returns_null",
    "Verif.StrParamsOom.create_str_under_refusals",
    "Verif.StrParamsOom.values_come_from_text",
    "Verif.StrParamsOom.refused_value_unsets",
    "Verif.StrParamsOom.all_granted_last_wins",
    "Verif.StrParamsOom.refused_key_breaks_empty_key",
    "Verif.StrParamsOom.refused_key_can_crash_parsing"
   ],
   "note": "Fewer than 2^59 characters. A refused copy is NULL; strcmp with NULL is undefined."
  },
  {
   "property": "C91",
   "status": "proved",
   "theorems": [
    "Verif.StrParamsOom.to_str_under_refusals",
    "Verif.StrParamsOom.to_str_of_missing_value"
   ],
   "note": "asprintf leaves its output pointer NULL when refused (glibc)."
  },
  {
   "property": "C92",
   "status": "proved",
   "theorems": [
    "Verif.IniFile.any_reader",
    "Verif.IniFile.parse_file",
    "Verif.IniFile.parse_named",
    "Verif.IniFile.parse_file_eq_parse_string",
    "Verif.IniFile.read_error_unreported",
    "Verif.IniFile.nul_hides_rest"
   ],
   "note": "fgets by its ISO C contract; default INI_* configuration."
  },
  {
   "property": "C93",
   "status": "proved",
   "theorems": [
    "Verif.AllocMt.never_fails",
    "Verif.AllocMt.blocks_apart",
    "Verif.AllocMt.malloc_result",
    "Verif.AllocMt.size_result",
    "Verif.AllocMt.free_result",
    "Verif.AllocMt.contents_kept",
    "Verif.AllocMt.leak_report",
    "Verif.AllocMt.idle_report",
    "Verif.AllocMt.progress",
    "Verif.AllocMt.every_call_returns",
    "Verif.AllocMt.check_during_malloc_undefined",
    "Verif.AllocMt.check_during_malloc_aborts"
   ],
   "note": "Sequentially consistent memory; records and table entries are granted; the client uses only blocks it has and starts no leak check while somebody allocates (and the reverse); the last two theorems show that this restriction is needed."
  },
  {
   "property": "C94",
   "status": "proved",
   "theorems": [
    "Verif.AutoCoverMt.calls_linearizable",
    "Verif.AutoCoverMt.window_linearizable",
    "Verif.AutoCoverMt.no_fault",
    "Verif.AutoCoverMt.never_stuck",
    "Verif.AutoCoverMt.every_call_returns",
    "Verif.AutoCoverMt.lock_needed"
   ],
   "note": "The user's lock is a mutex whose acquire succeeds (the code ignores what acquire returns). window_linearizable and no_fault ask for the sequential obligations of C14-C16 (no write longer than the buffer, positions inside the window's reach, less than 2^31 bytes) of the calls in the order in which they take effect."
  },
  {
   "property": "C95",
   "status": "proved",
   "theorems": [
    "Verif.HashmapMt.dictionary_linearizable",
    "Verif.HashmapMt.no_fault",
    "Verif.HashmapMt.never_stuck",
    "Verif.HashmapMt.every_call_returns",
    "Verif.HashmapMt.size_observed",
    "Verif.HashmapMt.size_not_linearizable",
    "Verif.HashmapMt.lock_needed"
   ],
   "note": "The user's lock is a mutex whose acquire succeeds (the code ignores what acquire returns); a size_t is read and written in one piece (the unlocked read in hashmap_size is formally a data race). Keys are compared by an equivalence compatible with the hash, as in C17."
  },
  {
   "property": "C96",
   "status": "proved",
   "theorems": [
    "Verif.MpliteMt.mpliteMt_never_faults",
    "Verif.MpliteMt.mpliteMt_sequential",
    "Verif.MpliteMt.mpliteMt_blocks",
    "Verif.MpliteMt.mpliteMt_contents",
    "Verif.MpliteMt.mpliteMt_fresh",
    "Verif.MpliteMt.mpliteMt_realloc",
    "Verif.MpliteMt.mpliteMt_resize",
    "Verif.MpliteMt.mpliteMt_size_not_stale",
    "Verif.MpliteMt.mpliteMt_null_when_full",
    "Verif.MpliteMt.mpliteMt_freemem",
    "Verif.MpliteMt.mpliteMt_maxmem",
    "Verif.MpliteMt.mpliteMt_exclusive",
    "Verif.MpliteMt.mpliteMt_steps_bounded",
    "Verif.MpliteMt.mpliteMt_no_deadlock",
    "Verif.MpliteMt.mpliteMt_every_call_returns",
    "Verif.MpliteMt.mpliteMt_store_swaps",
    "Verif.MpliteMt.mpliteMt_section_swaps"
   ],
   "note": "The user's lock is a mutex whose acquire succeeds (the code ignores what acquire returns). Threads pass only pointers to blocks they own; a block passed to free, realloc or resize is not used by its owner until the call returns."
  },
  {
   "property": "C97",
   "status": "proved",
   "theorems": [
    "Verif.IniHeap.never_faults",
    "Verif.IniHeap.no_leak",
    "Verif.IniHeap.parse_complete",
    "Verif.IniHeap.history",
    "Verif.IniHeap.failed_put",
    "Verif.IniHeap.delete_last_then_use",
    "Verif.IniHeap.leak_example",
    "Verif.IniHeap.keep_of_no_delSec"
   ],
   "note": "Deleting the section created last is excluded: delete_last_then_use proves that every later search reads freed memory (C44). leak_example: the list of a new section is lost when its node cannot be allocated (ini_parser.c 280-284)."
  },
  {
   "property": "C98",
   "status": "proved",
   "theorems": [
    "Verif.RingBufSpsc.reads_from_stream",
    "Verif.RingBufSpsc.received_prefix",
    "Verif.RingBufSpsc.no_ub",
    "Verif.RingBufSpsc.no_byte_race",
    "Verif.RingBufSpsc.unread_intact",
    "Verif.RingBufSpsc.available_exact",
    "Verif.RingBufSpsc.write_all_or_nothing",
    "Verif.RingBufSpsc.write_refused_iff",
    "Verif.RingBufSpsc.read_refused_iff",
    "Verif.RingBufSpsc.room_only_grows",
    "Verif.RingBufSpsc.data_only_grows",
    "Verif.RingBufSpsc.checked_write_accepted",
    "Verif.RingBufSpsc.checked_read_accepted",
    "Verif.RingBufSpsc.write_offset_agrees",
    "Verif.RingBufSpsc.read_offset_agrees",
    "Verif.RingBufSpsc.clear_during_write_breaks"
   ],
   "note": "ring_buf.h does not promise thread safety; this is what the algorithm guarantees when plain loads and stores are sequentially consistent (the code has no atomics: on weakly ordered hardware, or with a compiler that moves the offset store before the memcpy, it needs more)."
  },
  {
   "property": "C99",
   "status": "proved",
   "theorems": [
    "Verif.RingBufTso.tso_reads_from_stream",
    "Verif.RingBufTso.tso_received_prefix",
    "Verif.RingBufTso.tso_no_ub",
    "Verif.RingBufTso.tso_no_pending_race",
    "Verif.RingBufTso.tso_no_byte_race",
    "Verif.RingBufTso.tso_drained_holds_rest",
    "Verif.RingBufTso.tso_views_safe",
    "Verif.RingBufTso.sc_is_tso",
    "Verif.RingBufTso.pso_garbage"
   ],
   "note": "ring_buf.h does not promise thread safety; the compiler is assumed to keep bytes before offset. pso_garbage: without store order the guarantee fails (no barrier in the code)."
  }
 ]
}