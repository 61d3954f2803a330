{"id": "C01", "title": "Power-of-two test and round-up are exact", "statement": "integer_is_power_of_two(i) is true exactly when i = 2^k for some k >= 1; integer_roundup_pow_of_two(i) returns, for every i with 1 <= i <= 2^31, a power of two >= i that is the least such power (2 for i = 1), and 0 for i = 0 and for every i > 2^31.", "quantifier": "all 2^32 values of uint32_t", "why_tests_cant": "2^32 inputs; the bit-smearing trick is only correct if every bit position is covered", "anchors": ["src/data/integer.c:integer_is_power_of_two", "src/data/integer.c:integer_roundup_pow_of_two", "inc/data/integer.h"]}
{"id": "C02", "title": "Round-down returns the largest power of two not above the input", "statement": "integer_rounddown_pow_of_two(i) returns the largest power of two <= i for every i >= 2.", "quantifier": "all uint32_t values", "why_tests_cant": "the failing region (above 2^31) is a boundary only a proof or exhaustive search visits", "anchors": ["src/data/integer.c:integer_rounddown_pow_of_two"]}
{"id": "C03", "title": "RingBuf is a bounded byte FIFO", "statement": "After any sequence of RingBuf_write/read/peek/discard/clear on one thread, the bytes delivered by RingBuf_read are exactly the bytes accepted by RingBuf_write, in order, each delivered once (minus discarded/cleared ones), and RingBuf_available_read equals the number of bytes not yet consumed.", "quantifier": "every buffer size, every operation sequence, every byte content and length", "why_tests_cant": "wrap-around depends on the whole history of offsets; tests cover only some alignments", "anchors": ["src/ring/ring_buf.c:ring_buf_write", "src/ring/ring_buf.c:ring_buf_read", "src/ring/ring_buf.c:ring_buf_peek", "src/ring/ring_buf.c:ring_buf_discard", "inc/ring/ring_buf.h"]}
{"id": "C04", "title": "RingBuf operations are all-or-nothing, memory safe and its space accounting is exact", "statement": "RingBuf_write transfers either all len bytes or none (0 returned exactly when len = 0 or len exceeds available_write); likewise read/peek/discard against available_read; available_read + available_write = size - 1 always; peek changes nothing; every byte access is inside the size-byte buffer.", "quantifier": "every reachable buffer state and every requested length", "why_tests_cant": "requires an invariant over all offset pairs and an out-of-bounds outcome that tests only see by luck", "anchors": ["src/ring/ring_buf.c:ring_buf_available_read", "src/ring/ring_buf.c:ring_buf_available_write", "src/ring/ring_buf.c:ring_buf_create", "src/ring/ring_buf.c:ring_buf_create_with_mem"]}
{"id": "C05", "title": "RingBuffer is a bounded byte FIFO, also across 32-bit counter wrap-around", "statement": "After any sequence of RingBuffer_write/read/peek/discard/clear, read returns exactly the oldest unread min(requested, available) bytes; write accepts exactly min(requested, free) bytes; this stays true after more than 2^32 bytes have passed through; no access leaves the buffer.", "quantifier": "every power-of-two size up to 2^31, every history of any length, including those where the uint32_t counters overflow", "why_tests_cant": "4 GiB-plus histories and all alignments are out of reach for unit tests", "anchors": ["src/ring/ringbuffer.c:RingBuffer_write", "src/ring/ringbuffer.c:RingBuffer_read", "src/ring/ringbuffer.c:RingBuffer_peek", "src/ring/ringbuffer.c:RingBuffer_discard", "src/ring/ringbuffer.c:RingBuffer_clear"]}
{"id": "C06", "title": "RingBuffer creation sizes the buffer correctly and stays inside the caller's memory", "statement": "RingBuffer_create_with_mem never uses memory outside [pp, pp+size): header + real buffer <= size, and the real buffer size is a power of two (more than half of the space left). RingBuffer_create(n) gives a buffer of at least n bytes whenever it succeeds.", "quantifier": "every requested size", "why_tests_cant": "boundary sizes (2, 24..28, 2^30+1...) are where it matters", "anchors": ["src/ring/ringbuffer.c:RingBuffer_create", "src/ring/ringbuffer.c:RingBuffer_create_with_mem"]}
{"id": "C07", "title": "RingBuffer is safe with one reader thread and one writer thread", "statement": "With one thread calling RingBuffer_write and one calling RingBuffer_read with no lock, in every interleaving of their individual loads, byte copies and counter stores, the sequence of bytes received is a prefix of the sequence of bytes sent, the writer never overwrites an unread byte and the reader never returns an unwritten one.", "quantifier": "all interleavings, all lengths, all sizes, unbounded runs (sequentially consistent memory)", "why_tests_cant": "schedules cannot be enumerated by tests", "anchors": ["src/ring/ringbuffer.c:RingBuffer_read_internal", "src/ring/ringbuffer.c:RingBuffer_write", "inc/ring/ringbuffer.h"]}
{"id": "C08", "title": "fixed_msg_queue delivers whole fixed-size messages in FIFO order", "statement": "For any sequence of fixed_msg_queue push/pop, pops return the pushed messages whole, in order, once each; push fails exactly when no whole message fits and pop exactly when no whole message is stored, and a failed call changes nothing.", "quantifier": "all message sizes, capacities and operation sequences", "why_tests_cant": "message boundaries over a byte ring at every alignment", "anchors": ["src/ring/fixed_msg_queue.c:fixed_msg_queue_push", "src/ring/fixed_msg_queue.c:fixed_msg_queue_pop"]}
{"id": "C09", "title": "fixed_msg_queue can hold max_msg_capacity messages", "statement": "A queue created with one_msg_byte_size = s and max_msg_capacity = m accepts m consecutive pushes on an empty queue.", "quantifier": "all s and m for which creation succeeds", "why_tests_cant": "the real capacity depends on header size and power-of-two rounding of s*m", "anchors": ["src/ring/fixed_msg_queue.c:fixed_msg_queue_create", "inc/ring/fixed_msg_queue.h"]}
{"id": "C10", "title": "msg_queue delivers variable-length messages whole and in order", "statement": "For any sequence of msg_queue push/pop/clear, pops return exactly the pushed messages with their boundaries, in order, once each; msg_queue_next_msg_size reports the size of the message the next pop returns (0 if none).", "quantifier": "all message sizes/contents and operation sequences, all alignments of headers over the ring's end", "why_tests_cant": "length header and body may each straddle the wrap point", "anchors": ["src/ring/msg_queue.c:msg_queue_push", "src/ring/msg_queue.c:msg_queue_pop", "src/ring/msg_queue.c:msg_queue_next_msg_size"]}
{"id": "C11", "title": "msg_queue failures are precise and side-effect free", "statement": "push returns FULL exactly when 4+size exceeds the free space and then nothing changes; pop returns EMPTY exactly when no message is stored; when the caller's buffer is too small pop returns BUF_NOT_ENOUGH, stores the needed size in *msg_size_p, consumes nothing, and retrying with that size succeeds; AGAIN never happens in single-thread use.", "quantifier": "all states and sizes", "why_tests_cant": "requires the global header/body invariant", "anchors": ["src/ring/msg_queue.c:msg_queue_push", "src/ring/msg_queue.c:msg_queue_pop", "inc/ring/msg_queue_errno.h"]}
{"id": "C12", "title": "msg_queue_pop reports the real message size on success", "statement": "On success msg_queue_pop stores the size of the popped message in *msg_size_p (as inc/ring/msg_queue.h documents).", "quantifier": "all messages and caller buffer sizes", "why_tests_cant": "tests usually pass an exactly fitting size", "anchors": ["src/ring/msg_queue.c:msg_queue_pop", "inc/ring/msg_queue.h"]}
{"id": "C13", "title": "msg_queue between one producer and one consumer thread never tears a message", "statement": "With one pushing and one popping thread, in every interleaving, pop either returns a whole message that was pushed (in push order) or EMPTY/AGAIN; it never returns part of one.", "quantifier": "all interleavings, message lists and ring sizes", "why_tests_cant": "schedule-dependent: header visible before body", "anchors": ["src/ring/msg_queue.c:msg_queue_push", "src/ring/msg_queue.c:msg_queue_pop", "src/ring/ringbuffer.c:RingBuffer_write"]}
{"id": "C14", "title": "auto_cover_buf keeps the newest bytes", "statement": "auto_cover_buf_write of any length up to the capacity always succeeds, and afterwards the buffer contains exactly the last min(total, ...) bytes written: the newest write, preceded by as many older unread bytes as fit.", "quantifier": "all capacities and write histories", "why_tests_cant": "depends on complete history", "anchors": ["src/ring/autocover_buffer.c:auto_cover_buf_write", "inc/ring/autocover_buffer.h"]}
{"id": "C15", "title": "auto_cover_buf_read returns the bytes at the requested stream position", "statement": "If read_pos addresses a byte still held, auto_cover_buf_available_read/auto_cover_buf_read report the number of bytes from read_pos to the newest byte, and read(len) with len <= that number returns precisely the len stream bytes starting at read_pos.", "quantifier": "all positions inside the live window, all histories incl. wrap-around", "why_tests_cant": "two code branches (wrapped / not wrapped) and modulo comparisons at every alignment", "anchors": ["src/ring/autocover_buffer.c:auto_cover_buf_read", "src/ring/autocover_buffer.c:auto_cover_buf_available_read"]}
{"id": "C16", "title": "auto_cover_buf_read reports overwritten positions", "statement": "If the data at read_pos has been covered, auto_cover_buf_read returns AUTO_COVER_BUF_ERR_DATA_COVERED instead of data.", "quantifier": "all stale positions", "why_tests_cant": "stale positions alias modulo the buffer size", "anchors": ["src/ring/autocover_buffer.c:auto_cover_buf_read", "inc/ring/autocover_buffer.h"]}
{"id": "C17", "title": "hashmap behaves like a finite map", "statement": "For any sequence of hashmap_put/remove/get/clear with any (even constantly colliding) hash function and any equality that is an equivalence compatible with the hash, results equal those of a mathematical finite map; put returns the previous value, remove the removed one; growing the table is invisible.", "quantifier": "all hash functions, key sets, operation sequences, initial capacities", "why_tests_cant": "collisions and rehash points depend on the whole history", "anchors": ["src/data/hashmap.c:hashmap_put", "src/data/hashmap.c:hashmap_get", "src/data/hashmap.c:hashmap_remove", "src/data/hashmap.c:expandIfNecessary", "inc/data/hashmap.h"]}
{"id": "C18", "title": "hashmap_size counts distinct keys and allocation failures are harmless", "statement": "hashmap_size always equals the number of distinct keys stored; a put whose entry allocation fails leaves the map unchanged; a failed table growth loses nothing.", "quantifier": "all histories and all allocation failure patterns", "why_tests_cant": "failure injection at every point of every history", "anchors": ["src/data/hashmap.c:hashmap_put", "src/data/hashmap.c:createEntry", "src/data/hashmap.c:expandIfNecessary", "src/data/hashmap.c:hashmap_size"]}
{"id": "C19", "title": "hashmap frees each owned key and value exactly once", "statement": "With free callbacks installed: every key/value the map took ownership of is passed to the callback exactly once over the map's life (put-replace frees the old value only, remove/clear/free release both), and never while still reachable through the map.", "quantifier": "all operation sequences ending in hashmap_free", "why_tests_cant": "double free/leak are history-dependent", "anchors": ["src/data/hashmap.c:hashmap_put", "src/data/hashmap.c:hashmap_remove", "src/data/hashmap.c:hashmap_clear", "src/data/hashmap.c:hashmap_free"]}
{"id": "C20", "title": "hashmap_foreach visits each entry once and stops when asked", "statement": "hashmap_foreach calls the callback once for each entry; if a callback returns false no further callback is made (as documented).", "quantifier": "all maps, callbacks and stop points", "why_tests_cant": "multi-bucket layouts", "anchors": ["src/data/hashmap.c:hashmap_foreach", "inc/data/hashmap.h"]}
{"id": "C21", "title": "list behaves like a sequence", "statement": "For any sequence of list_append/prepend/insert_after/remove/clear, list_length/front/back/contains/foreach agree with a mathematical list: insertion order kept, remove deletes the first matching element only and reports whether it did, NULL data is rejected without effect.", "quantifier": "all operation sequences", "why_tests_cant": "tail pointer maintenance depends on which element is removed", "anchors": ["src/data/list.c:list_append", "src/data/list.c:list_prepend", "src/data/list.c:list_insert_after", "src/data/list.c:list_remove", "src/data/list.c:list_foreach"]}
{"id": "C22", "title": "list frees each element exactly once", "statement": "With a free callback, each element is passed to it exactly once when it leaves the list (remove/clear/free) and never otherwise.", "quantifier": "all operation sequences", "why_tests_cant": "history-dependent", "anchors": ["src/data/list.c:list_free_node_", "src/data/list.c:list_clear", "src/data/list.c:list_free"]}
{"id": "C23", "title": "array append/at are stable across growth", "statement": "After any number of successful array_append_ptr calls, array_length equals their number and array_at(i) reads back the i-th appended element, however often the storage grew; a failed growth leaves contents unchanged; storage is never exceeded.", "quantifier": "all element sizes, initial capacities, append counts", "why_tests_cant": "growth arithmetic (cap + cap/2) at every size", "anchors": ["src/data/array.c:array_append_ptr", "src/data/array.c:array_at", "src/data/array.c:grow", "inc/data/array.h"]}
{"id": "C24", "title": "Base64 decode inverts encode", "statement": "For every byte string of length >= 2, lcu_base64_decode(lcu_base64_encode(x)) = x with the exact original length, for every content including NULs and all padding cases.", "quantifier": "all byte strings of any length", "why_tests_cant": "infinitely many inputs; three padding classes", "anchors": ["src/data/base64.c:lcu_base64_encode", "src/data/base64.c:lcu_base64_decode"]}
{"id": "C25", "title": "Base64 output is well-formed and fits the advertised size", "statement": "base64_encode writes 4*ceil(n/3) characters of the standard alphabet with RFC 4648 padding and a NUL, the returned length and base64_encode_buf_size never underestimate the bytes written; base64_decode writes at most base64_decode_buf_size bytes; decoding stops at the first non-alphabet character.", "quantifier": "all inputs", "why_tests_cant": "buffer overrun must be excluded for every length", "anchors": ["src/data/base64.c:lcu_base64_encode", "src/data/base64.c:lcu_base64_decode", "src/data/base64.c:lcu_base64_encode_buf_size", "src/data/base64.c:lcu_base64_decode_buf_size"]}
{"id": "C26", "title": "URL decode inverts URL encode", "statement": "For every non-empty byte string and large enough buffers lcu_url_decode(lcu_url_encode(x)) = x, and the encoded text consists only of [A-Za-z0-9.*_-], '+' and %XX.", "quantifier": "all byte strings", "why_tests_cant": "256 byte values at all positions/lengths", "anchors": ["src/net/url_encoder_decoder.c:lcu_url_encode", "src/net/url_encoder_decoder.c:lcu_url_decode"]}
{"id": "C27", "title": "URL codec never writes past the output buffer", "statement": "Neither url_encode nor url_decode writes outside out[0..out_size), success results are NUL terminated, an output buffer of 3*len+1 bytes (encode) / len+1 bytes (decode) is always sufficient, a too small encode buffer gives an error, never truncated success; decode stops only at the end of the text, at a full buffer or at a cut-off escape, reports through last_src_pos exactly how much it consumed, and rejects malformed text with -2.", "quantifier": "all inputs and buffer sizes", "why_tests_cant": "boundary of every escape vs every remaining size", "anchors": ["src/net/url_encoder_decoder.c:lcu_url_encode", "src/net/url_encoder_decoder.c:lcu_url_decode"]}
{"id": "C28", "title": "strlcpy/strlcat obey the BSD contract", "statement": "strlcpy writes at most size bytes, always terminates when size > 0, copies the longest fitting prefix and returns strlen(src); strlcat appends as much as fits, terminates, and returns min(size, strlen(dst)) + strlen(src).", "quantifier": "all strings and sizes", "why_tests_cant": "all length/size combinations", "anchors": ["src/mem/strings.c:strlcpy", "src/mem/strings.c:strlcat"]}
{"id": "C29", "title": "strreplace replaces all non-overlapping occurrences left to right", "statement": "For a non-empty pattern strreplace returns the string where every leftmost non-overlapping occurrence of the pattern is replaced, in a buffer of exactly sufficient size, and terminates.", "quantifier": "all strings, patterns, replacements", "why_tests_cant": "two-pass length/copy agreement", "anchors": ["src/mem/strings.c:strreplace"]}
{"id": "C30", "title": "strtrim and strsplit", "statement": "strtrim removes exactly the leading and trailing white space; strsplit yields the maximal non-empty runs of non-delimiter characters in order, at most the requested number.", "quantifier": "all strings", "why_tests_cant": "all-space strings, adjacent delimiters, limits", "anchors": ["src/mem/strings.c:strtrim", "src/mem/strings.c:strsplit"]}
{"id": "C31", "title": "UTF-8 length counts code points", "statement": "For every valid UTF-8 encoded sequence of n code points strutf8len returns n (strnutf8len likewise within its limit).", "quantifier": "all code point sequences", "why_tests_cant": "all of Unicode, any length", "anchors": ["src/mem/strings.c:strutf8len", "src/mem/strings.c:strnutf8len"]}
{"id": "C32", "title": "str_char2hex stays within the output buffer", "statement": "str_char2hex never writes outside out[0..out_capacity) and yields ' xx' for each byte (or a truncation notice followed by a prefix).", "quantifier": "all inputs and capacities", "why_tests_cant": "size_t underflow only at truncation", "anchors": ["src/mem/strings.c:str_char2hex", "src/log/slog.c:__slog_internal_hex_print", "src/log/xlog.c:__xlog_internal_hex_print"]}
{"id": "C33", "title": "string_builder accumulates exactly what was appended and never overflows", "statement": "After any sequence of successful appends the builder's string is the concatenation of the appended pieces, its length is the sum, the text is NUL-terminated, and no write leaves the allocation; clear empties it.", "quantifier": "all append sequences and growth points", "why_tests_cant": "growth doubling at each boundary", "anchors": ["src/mem/stringbuilder.c:stringbuilder_appendchar", "src/mem/stringbuilder.c:stringbuilder_appendnstr", "src/mem/stringbuilder.c:sb_ensure_space"]}
{"id": "C34", "title": "str_params behaves like a string map", "statement": "After str_params_add_str(k,v), str_params_get_str(k) yields v (or -ENOMEM if the buffer is too small), other keys are unaffected; del removes; has_key agrees.", "quantifier": "all operation sequences", "why_tests_cant": "history-dependent", "anchors": ["src/mem/str_params.c:str_params_add_str", "src/mem/str_params.c:str_params_get_str", "src/mem/str_params.c:str_params_del"]}
{"id": "C35", "title": "str_params text round trip", "statement": "For a map whose keys are non-empty and free of delimiter and '=' and whose values are free of the delimiter, parsing the text produced by str_params_to_str reproduces the same map.", "quantifier": "all such maps", "why_tests_cant": "all contents, all iteration orders of the table", "anchors": ["src/mem/str_params.c:str_params_to_str", "src/mem/str_params.c:str_params_create_str"]}
{"id": "C36", "title": "str_params integer round trip", "statement": "str_params_add_long(k, n) followed by str_params_get_long(k) gives n for every n; of an arbitrary stored text str_params_get_long answers 0 and its value (the nearest long) exactly when the text is a C integer - decimal, octal or hexadecimal, white space and sign in front, nothing behind - and -EINVAL otherwise.", "quantifier": "all long values, all texts", "why_tests_cant": "2^64 values, signs and extremes", "anchors": ["src/mem/str_params.c:str_params_add_long", "src/mem/str_params.c:str_params_get_long"]}
{"id": "C37", "title": "mplite blocks are aligned, in bounds and mutually disjoint", "statement": "For any sequence of mplite_malloc/free, every outstanding block lies inside the pool's payload, is at least as large as requested, is aligned to its own (power of two) size relative to the pool, overlaps no other outstanding block nor the control bytes.", "quantifier": "all pool sizes, min_alloc values, request sequences", "why_tests_cant": "heap shape depends on entire history", "anchors": ["src/mem/mplite.c:mplite_malloc", "src/mem/mplite.c:mplite_free", "src/mem/mplite.c:mplite_init"]}
{"id": "C38", "title": "mplite never loses memory: freeing everything restores the initial pool", "statement": "Outstanding + free bytes is constant; after all blocks are freed (any order) the set of free blocks equals that right after mplite_init, so the same maximal request succeeds again.", "quantifier": "all histories and free orders", "why_tests_cant": "buddy coalescing order", "anchors": ["src/mem/mplite.c:mplite_free_unsafe", "src/mem/mplite.c:mplite_malloc_unsafe", "src/mem/mplite.c:mplite_link"]}
{"id": "C39", "title": "mplite statistics are exact", "statement": "current_out / current_count equal the summed size / number of outstanding blocks and max_* their historical maxima, after any history.", "quantifier": "all histories", "why_tests_cant": "history-dependent", "anchors": ["src/mem/mplite.c:mplite_malloc_unsafe", "src/mem/mplite.c:mplite_free_unsafe"]}
{"id": "C40", "title": "mplite_malloc fails only when it must", "statement": "mplite_malloc(n) returns NULL only if n is 0 or too large or no free block of at least the rounded size exists.", "quantifier": "all states", "why_tests_cant": "fragmentation patterns", "anchors": ["src/mem/mplite.c:mplite_malloc_unsafe"]}
{"id": "C41", "title": "Allocation tracker reports exactly the unfreed bytes and detects corruption", "statement": "After any sequence of tracked allocations and frees, allocation_tracker_expect_no_allocations returns the sum of sizes of blocks not yet freed; a double/foreign free or any changed canary byte on free is detected.", "quantifier": "all histories", "why_tests_cant": "history-dependent", "anchors": ["src/mem/allocation_tracker.c:allocation_tracker_notify_alloc", "src/mem/allocation_tracker.c:allocation_tracker_notify_free", "src/mem/allocation_tracker.c:allocation_tracker_expect_no_allocations"]}
{"id": "C42", "title": "lcu_realloc preserves contents", "statement": "lcu_realloc(p, n) returns a block whose first min(old, n) bytes equal the old block's.", "quantifier": "all sizes, tracker on or off", "why_tests_cant": "the tracker-off path loses the size", "anchors": ["src/mem/allocator.c:lcu_realloc"]}
{"id": "C43", "title": "ini_parser get returns what was last put", "statement": "After ini_parser_put_string(sec,key,v), ini_parser_get_string(sec,key) returns v; section and key lookup ignore letter case; other keys are unaffected.", "quantifier": "all operation sequences and names within the documented limits", "why_tests_cant": "history-dependent; truncation limits", "anchors": ["src/file/ini_parser.c:ini_parser_put_string", "src/file/ini_parser.c:ini_parser_get_string"]}
{"id": "C44", "title": "ini_parser deletion is precise and leaves the parser usable", "statement": "Deleting a key/section removes exactly it; all later operations behave as if it had never existed.", "quantifier": "all operation sequences", "why_tests_cant": "a cached section pointer makes it history-dependent", "anchors": ["src/file/ini_parser.c:ini_parser_delete_section", "src/file/ini_parser.c:ini_parser_delete_by_section_key"]}
{"id": "C45", "title": "ini dump/parse round trip", "statement": "Parsing the text produced by ini_parser_dump_to_mem/save yields a document with the same sections, keys and values, for names and values free of syntax characters and within limits.", "quantifier": "all such documents", "why_tests_cant": "all contents", "anchors": ["src/file/ini_parser.c:ini_parser_dump_to_mem", "src/file/ini_parser.c:ini_parser_parse_str", "src/file/ini_reader.c:ini_reader_parse_stream"]}
{"id": "C46", "title": "ini_reader classifies every line by the INI rules", "statement": "For every text whose lines fit the line buffer, ini_reader_parse_string reports to the handler exactly the (section, name, value) of each key line in order, ignoring comments/blank lines, and returns the first line in error (0 if none).", "quantifier": "all texts", "why_tests_cant": "all line shapes in all orders", "anchors": ["src/file/ini_reader.c:ini_reader_parse_stream", "src/file/ini_reader.c:ini_find_chars_or_comment"]}
{"id": "C47", "title": "file read/write loops transfer everything despite short counts", "statement": "For every pattern of short reads/writes by the C library, file_util_write/read transfers all bytes in order until error/EOF and returns the exact count.", "quantifier": "all short-count schedules", "why_tests_cant": "schedules chosen by the OS", "anchors": ["src/file/file_util.c:file_util_write", "src/file/file_util.c:file_util_read"]}
{"id": "C48", "title": "file_util_append_slash_on_path_if_needed yields a slash-terminated path inside the buffer", "statement": "For every path and buffer size the result is NUL-terminated inside the buffer, ends in a slash, and the original text is kept when there is room.", "quantifier": "all paths and sizes", "why_tests_cant": "boundary sizes", "anchors": ["src/file/file_util.c:file_util_append_slash_on_path_if_needed"]}
{"id": "C49", "title": "fast_second2date computes the proleptic Gregorian date", "statement": "time_util_fast_second2date gives the correct UTC-offset civil date and time of day for every time stamp and zone.", "quantifier": "all seconds in 0..2^31-1 and beyond, all zones", "why_tests_cant": "all days over centuries; leap rules", "anchors": ["src/time/time_util.c:time_util_fast_second2date"]}
{"id": "C50", "title": "The cached time string equals the uncached one", "statement": "For any number of threads and any history of calls of the time-text functions (cached or not) with times from one second after the epoch to 2^31-1 (not before 1970 in the zone), every call returns exactly the text of its own time, zone, format and milliseconds, whatever the caches held.", "quantifier": "all call histories and interleavings", "why_tests_cant": "cache hit/miss depends on history and interleaving", "anchors": ["src/time/time_util.c:time_util_get_time_str", "src/time/time_util.c:time_util_get_time_str_current", "src/time/time_util.c:get_time_str"]}
{"id": "C51", "title": "msg_queue_handler handles every accepted message once, in order, without lost wake-ups", "statement": "Every message whose push returned success is handed to the callback exactly once, in push order, unless the handler is destroyed or the callback requested exit; the worker never sleeps while an accepted message waits; in every infinite fair execution every accepted message is handled (or the handler is told to exit), every push returns and every destroy joins the worker.", "quantifier": "all interleavings of producer and worker, all message sizes", "why_tests_cant": "schedules", "anchors": ["src/ring/msg_queue_handler.c:thread_worker_handle_msg", "src/ring/msg_queue_handler.c:msg_queue_handler_push"]}
{"id": "C52", "title": "fixed_msg_queue_handler_clear drops exactly the messages pushed before it", "statement": "A message pushed after clear is delivered; a message pushed before clear and not yet started is never delivered afterwards; in every infinite fair execution every accepted message is delivered or cleared (or the handler stops), every push returns and every destroy joins the worker.", "quantifier": "all interleavings", "why_tests_cant": "schedules", "anchors": ["src/ring/fixed_msg_queue_handler.c:fixed_msg_queue_handler_clear", "src/ring/fixed_msg_queue_handler.c:fixed_msg_queue_handler_push"]}
{"id": "C53", "title": "thpool runs each accepted job exactly once, in FIFO start order, without lost wake-ups", "statement": "Every job added is started by exactly one worker, jobs are dequeued in submission order, and whenever a job is queued some worker is awake or has been signalled; in every infinite execution with fair scheduling (job functions return, the pool is not destroyed) every job added is executed and every call of thpool_add_work returns, however many calls arrive.", "quantifier": "all interleavings, any number of threads/jobs", "why_tests_cant": "schedules", "anchors": ["src/thread/thpool.c:thpool_add_work", "src/thread/thpool.c:thread_do", "src/thread/thpool.c:jobqueue_pull", "src/thread/thpool.c:jobqueue_push", "src/thread/thpool.c:bsem_wait"]}
{"id": "C54", "title": "thpool_wait returns only when all work is finished", "statement": "When thpool_wait returns, every job added before the call has completed.", "quantifier": "all interleavings", "why_tests_cant": "a job momentarily neither queued nor counted would be missed only in rare schedules", "anchors": ["src/thread/thpool.c:thpool_wait", "src/thread/thpool.c:thread_do"]}
{"id": "C55", "title": "The MCS lock used on Windows gives mutual exclusion and hands over in FIFO order", "statement": "As long as a queue node's memory is not used again before the thread queued behind it has finished acquire's write to it: at most one thread holds the lock in every interleaving; the lock passes in the order of arrival; no null or finished node is dereferenced; a release always wakes the successor, so that once no new calls arrive everybody gets the lock after finitely many steps; even while new calls keep arriving, in every weakly fair infinite execution (running threads are scheduled, holders release) every acquire obtains the lock and every release returns; try_acquire succeeds on an unused lock and fails without effect on a used one. (The code's own callers do not meet the premise: their nodes are local variables.)", "quantifier": "any number of threads, all interleavings", "why_tests_cant": "schedules", "anchors": ["src/thread/pthread_win_simple/ptw32_mcs_lock.c:ptw32_mcs_lock_acquire", "src/thread/pthread_win_simple/ptw32_mcs_lock.c:ptw32_mcs_lock_release"]}
{"id": "C56", "title": "The simple Windows rwlock excludes writers", "statement": "A writer never holds the lock together with any other holder; readers may share; no assertion of the code fails; a reader does not enter while a writer waits; a waiting reader or writer may enter exactly when the holders and (for readers) the waiting writers permit; as long as somebody is inside some thread can step, and once no new calls arrive all pending calls finish after boundedly many steps; in every fair infinite execution (calls that can go on again and again go on, holders unlock) every wrlock obtains the lock although new calls keep arriving, and every rdlock does once writers stop arriving; a statically initialised lock is initialised once by racing threads, also on x86 store buffers and when memory or handles cannot be had (the call then answers 12 or -2, nothing is published and a later call tries again).", "quantifier": "any number of threads, all interleavings, all store buffer delays and failures during initialisation", "why_tests_cant": "schedules", "anchors": ["src/thread/pthread_win_simple/pthread_win_simple.c:pthread_rwlock_rdlock", "src/thread/pthread_win_simple/pthread_win_simple.c:pthread_rwlock_wrlock", "src/thread/pthread_win_simple/pthread_win_simple.c:pthread_rwlock_init"]}
{"id": "C57", "title": "xlog emits exactly the messages at or above the configured level and delivers them whole", "statement": "For every history of configuring calls, a message is emitted iff a target is set, the minimum level is not OFF and the level lies between the minimum and ERROR; console and callback get exactly header (time, level and tag, thread as configured), function and line, and the formatted message, for every message length (512-byte stack buffer or one heap block, freed afterwards); the callback gets the exact size, the raised level and a NUL. Only a function name leaving no room in the buffer, an auto-level-up beyond the level table, or a hexadecimal message over 170 bytes break this.", "quantifier": "all configurations, levels, tags, functions, lines, message lengths and contents, allocation failures", "why_tests_cant": "boundary between stack and heap buffer, arbitrary texts and configurations", "anchors": ["src/log/xlog.c:__xlog_internal_print", "src/log/xlog.c:__xlog_internal_hex_print", "src/log/xlog.c:XLOG_IS_LEVEL_LOGABLE", "src/log/xlog.c:xlog_set_format", "src/log/xlog.c:xlog_set_target"]}
{"id": "C58", "title": "file_util_mkdirs creates every missing directory of the path", "statement": "For every path of at most 255 characters and every file system, file_util_mkdirs visits the prefixes ending in a separator from shortest to longest, skips the existing ones, creates the others, stops at the first failure and returns its code; when it returns 0 all those directories exist.", "quantifier": "all paths and file-system behaviours", "why_tests_cant": "arbitrary paths and file-system states", "anchors": ["src/file/file_util.c:file_util_mkdirs"]}
{"id": "C59", "title": "file_util_read_txt delivers exactly the non-blank lines", "statement": "For every file content and every handler, the handler is called exactly for the non-blank lines, in order, with line number and text without line end and leading white space, until it returns non-zero; that value is returned. Lines over 1023 bytes come in pieces whose concatenation is the file.", "quantifier": "all file contents and handlers", "why_tests_cant": "arbitrary contents, line lengths around the buffer size", "anchors": ["src/file/file_util.c:file_util_read_txt"]}
{"id": "C60", "title": "file_util_read_all returns the exact contents", "statement": "For every non-empty file below 2^31 bytes that can be read, the returned block holds exactly its contents followed by a NUL and the length is exact; otherwise no block is returned and the code is non-zero.", "quantifier": "all contents, allocation and read failures", "why_tests_cant": "arbitrary contents and failures", "anchors": ["src/file/file_util.c:file_util_read_all"]}
{"id": "C61", "title": "fixed_msg_queue between one pushing and one popping thread never tears a message", "statement": "With one thread calling fixed_msg_queue_push and another fixed_msg_queue_pop, without locks, popped messages are the pushed ones, whole, in order, each once; nothing is lost; a pop never sees a half-written message.", "quantifier": "all interleavings of the counter loads/stores and byte copies, all message sizes and histories", "why_tests_cant": "schedules", "anchors": ["src/ring/fixed_msg_queue.c:fixed_msg_queue_push", "src/ring/fixed_msg_queue.c:fixed_msg_queue_pop", "src/ring/ring_buffer.c"]}
{"id": "C62", "title": "thpool_destroy waits for the jobs that are running, and nothing runs afterwards", "statement": "When thpool_destroy comes to its end every job function that was entered has returned, every job taken from the queue has been executed, and no job function is entered afterwards; from every state after the call there is a continuation in which it ends, and in every fairly scheduled infinite execution it ends.", "quantifier": "all interleavings, any number of threads/jobs", "why_tests_cant": "schedules", "anchors": ["src/thread/thpool.c:thpool_destroy", "src/thread/thpool.c:thread_do"]}
{"id": "C63", "title": "The simple Windows condition variable loses no wake-up and wakes nobody without notice", "statement": "pthread_cond_wait releases the mutex and starts to wait atomically with respect to threads that hold the mutex, and returns with the mutex locked; a thread returns from it only after a signal or broadcast issued since it began to wait; signal promises one wake-up if somebody waits and broadcast one per waiting thread; never more threads wake than were promised, and when every pending call has gone as far as it can exactly the promised number have woken; a broadcast wakes everyone who waited, if nobody starts to wait meanwhile. In every fair infinite execution (calls that can go on again and again go on, mutex holders unlock) every promised wake-up is delivered although new calls keep arriving, a woken thread gets the mutex and returns, and after a broadcast everybody who waited returns if nobody starts to wait anew.", "quantifier": "any number of threads, all interleavings", "why_tests_cant": "schedules", "anchors": ["src/thread/pthread_win_simple/pthread_win_simple.c:pthread_cond_wait", "src/thread/pthread_win_simple/pthread_win_simple.c:pthread_cond_signal", "src/thread/pthread_win_simple/pthread_win_simple.c:pthread_cond_broadcast"]}
{"id": "C64", "title": "pthread_create/join/detach (simple Windows layer): a thread's record is freed exactly once, after its last use", "statement": "For any number of threads, each joined or detached at most once at any moment of the thread's life: no step touches a freed record or closed handle; record and handle are released exactly once (by join, by detach of a finished thread, or by the detached thread itself); join returns the value the start function returned, after the thread ended; an id that is neither joined nor detached stays valid; join and detach do not fail and there is no deadlock; under fair scheduling create and detach return whatever the start functions do, and join returns as soon as that one start function has; a pthread_create that fails (no memory: 22, no thread: -1) leaves no thread, no record and no open handle behind.", "quantifier": "any number of threads, all interleavings, all moments of join/detach, every combination of failing malloc / CreateThread", "why_tests_cant": "schedules", "anchors": ["src/thread/pthread_win_simple/pthread_win_simple.c:pthread_create", "src/thread/pthread_win_simple/pthread_win_simple.c:pthread_join", "src/thread/pthread_win_simple/pthread_win_simple.c:pthread_detach", "src/thread/pthread_win_simple/pthread_win_simple.c:pri_win_thread_start_routine"]}
{"id": "C65", "title": "The file logger writes every accepted message, whole and in order", "statement": "For every interleaving of the logging thread and the worker, every message size and every sequence of clock readings: file_logger_log returns success iff a push was accepted (one retry when asked to try its best) and otherwise appends the message to the lost file; the log files hold the lines of the accepted messages in order, each line whole in one file, a new file being started exactly when a line takes the current one to the limit; all of them once the worker sleeps. Lost only: files opened twice within a millisecond, messages still queued at deinit, bytes behind a NUL, messages over 2^31 bytes.", "quantifier": "all interleavings, message sequences, sizes, clock readings, push results, allocation failures", "why_tests_cant": "thread interleavings and arbitrary histories across file boundaries", "anchors": ["src/log/file_logger.c:file_logger_init", "src/log/file_logger.c:file_logger_log", "src/log/file_logger.c:handle_log_queue_msg", "src/log/file_logger.c:file_logger_deinit"]}
{"id": "C66", "title": "Hash functions: defined, and collisions of integer keys only where 32 bits agree", "statement": "hash_function_integer and hash_function_pointer are defined for every key and give equal values exactly for keys whose low 32 bits are equal (so no collisions among int keys; pointers differing only in the high half always collide). hash_function_string is 5381*33^n + sum of characters (signed) times powers of 33 for strings of up to three characters; for every longer string its int arithmetic overflows (undefined in C); computed modulo 2^32 it is that polynomial for every string.", "quantifier": "all keys, all strings", "why_tests_cant": "injectivity over 2^64 keys and a polynomial law for all strings", "anchors": ["src/data/hash_functions.c:hash_function_integer", "src/data/hash_functions.c:hash_function_pointer", "src/data/hash_functions.c:hash_function_string", "src/data/hash_functions.c:hash_function_naive"]}
{"id": "C67", "title": "RFC 1123 / RFC 2822 time strings are exact", "statement": "For every instant in the years 1000..9999 and every array of at least the documented size (30, 32, 30 bytes), time_rfc1123, time_rfc2822 and time_rfc2822_utc return 0 and write exactly 'Www, DD Mon YYYY HH:MM:SS GMT' (resp. '+0000', 'UTC') for the UTC civil time and weekday of the Gregorian calendar, terminated, touching nothing behind it; a null pointer or smaller size gives -1 and leaves the array alone. From the year 10000 on the text does not fit and 0 is returned with unspecified contents.", "quantifier": "all instants, all sizes and arrays", "why_tests_cant": "2.8e11 instants; the calendar law", "anchors": ["src/time/time_rfc1123.c:time_rfc1123", "src/time/time_rfc2822.c:time_rfc2822", "src/time/time_rfc2822.c:time_rfc2822_utc"]}
{"id": "C68", "title": "file_iterator_foreach visits every entry once, in order, until told to stop", "statement": "If the directory can be read and opened, the handler gets exactly the entries other than '.' and '..', each once, in stream order, with the type of that entry, until the end, until a call returns non-zero, or until an entry whose status cannot be read; the stream is closed exactly once and 0 is returned. Otherwise the handler is never called and 1 is returned. With readable entries and a handler returning 0 all entries are visited. (A dangling link silently ends the iteration with 0; a path of PATH_MAX or more is cut.)", "quantifier": "all directories, names, handlers and handler states", "why_tests_cant": "all directory contents and handler behaviours", "anchors": ["src/file/file_iterator.c:file_iterator_foreach"]}
{"id": "C69", "title": "Semaphores of the simple Windows layer: tokens are conserved, no wake-up is lost", "statement": "For any number of threads calling sem_wait, sem_trywait, sem_timedwait, sem_post and sem_getvalue in any interleaving: count + successful waits + tokens held by running getvalue calls + tokens lost by getvalue = initial value + successful posts, so there are never more successful waits than tokens; nothing is lost while initial value + posts stay within SEM_VALUE_MAX; only wait/timedwait block, exactly at count 0; when everything is blocked every token has been taken; in every fair infinite execution trywait, post and getvalue return, a thread stays in sem_wait for ever only if every token has been taken, and if posts succeed again and again every sem_wait returns; every result (0, EAGAIN, EINVAL, value) is given exactly in its case and the value reported is the number of tokens left. Exceptions: getvalue takes a token for a moment, so trywait can fail with EAGAIN meanwhile, and at the maximum a token can be lost.", "quantifier": "any number of threads, all interleavings (finite and infinite fair ones), initial values, maxima", "why_tests_cant": "schedules", "anchors": ["src/thread/pthread_win_simple/semaphore_win_simple.c:sem_wait", "src/thread/pthread_win_simple/semaphore_win_simple.c:sem_trywait", "src/thread/pthread_win_simple/semaphore_win_simple.c:sem_timedwait", "src/thread/pthread_win_simple/semaphore_win_simple.c:sem_post", "src/thread/pthread_win_simple/semaphore_win_simple.c:sem_getvalue"]}
{"id": "C70", "title": "Named semaphores and deadlines of the simple Windows layer", "statement": "sem_open never leaves its name buffer; names of length 0 or over 504, or a value above SEM_VALUE_MAX, give EINVAL and change nothing; with O_CREAT a new name gives a semaphore with the given value; an existing name gives the same semaphore with its current count (value ignored), or EEXIST without any change for O_CREAT|O_EXCL; after any sequence of opens and closes an object exists exactly while one of its handles is open; unnamed semaphores at different addresses never share a kernel object; sem_timedwait's deadline is kept to within a millisecond up to 2^32-2 ms ahead, deadlines in the past do not wait. Exceptions: ENOENT leaves the semaphore created, sem_init clashes with another process's semaphore at the same address, deadlines from 2^32 ms ahead time out at once.", "quantifier": "all names, flags, values, deadlines, histories of opens and closes", "why_tests_cant": "all histories of opens and closes, all deadlines", "anchors": ["src/thread/pthread_win_simple/semaphore_win_simple.c:sem_open", "src/thread/pthread_win_simple/semaphore_win_simple.c:sem_open_internal", "src/thread/pthread_win_simple/semaphore_win_simple.c:sem_init", "src/thread/pthread_win_simple/semaphore_win_simple.c:sem_destroy", "src/thread/pthread_win_simple/semaphore_win_simple.c:sem_close", "src/thread/pthread_win_simple/semaphore_win_simple.c:arch_rel_time_in_ms"]}
{"id": "C71", "title": "Lock-free ring on a machine with store buffers (TSO)", "statement": "One writer and one reader thread use a RingBuffer without locks on a multiprocessor with store buffers (x86-TSO: every store reaches memory later, in order, at any time). For any calls they make and any drain times: every read, peek or discard obtains exactly the bytes of the sent stream at the reader's position, never more than was sent; no more than the capacity is accepted ahead of the reader; no access leaves the ring; no byte being read is the target of a pending store; once the buffers have drained the ring holds exactly what was sent and not consumed. It is false when stores to different locations may be reordered: a reader then receives a byte never sent, since the code has no barrier.", "quantifier": "all programs over the ring operations, all interleavings, all drain times, all sizes and contents", "why_tests_cant": "schedules and memory-system timing", "anchors": ["src/ring/ringbuffer.c:RingBuffer_write", "src/ring/ringbuffer.c:RingBuffer_read_internal", "src/ring/ringbuffer.c:RingBuffer_available_read", "src/ring/ringbuffer.c:RingBuffer_available_write"]}
{"id": "C72", "title": "Message queue between two threads on a machine with store buffers (TSO)", "statement": "One thread pushes and one pops on a msg_queue without locks, on a machine with FIFO store buffers: whatever the interleaving and the drain times, the messages popped are, in order, a prefix of the messages pushed successfully followed by at most the one being pushed; no assertion fires; every pop answers SUCCESS, EMPTY or BUF_NOT_ENOUGH; when both are idle and the buffers have drained the queue holds exactly the rest. False when stores may be reordered (a torn message is delivered).", "quantifier": "all message sizes and contents, all interleavings, all drain times", "why_tests_cant": "schedules and memory-system timing", "anchors": ["src/ring/msg_queue.c:msg_queue_push", "src/ring/msg_queue.c:msg_queue_pop"]}
{"id": "C73", "title": "Fixed-size message queue between two threads on a machine with store buffers (TSO)", "statement": "One thread pushes and one pops on a fixed_msg_queue without locks, on a machine with FIFO store buffers: the messages popped are, in order, a prefix of the messages pushed successfully followed by at most the one being pushed, each of the configured size; nothing crashes; when both are idle and the buffers have drained the queue holds exactly the rest. False when stores may be reordered.", "quantifier": "all message sizes and contents, all interleavings, all drain times", "why_tests_cant": "schedules and memory-system timing", "anchors": ["src/ring/fixed_msg_queue.c:fixed_msg_queue_push", "src/ring/fixed_msg_queue.c:fixed_msg_queue_pop"]}
{"id": "C74", "title": "Simple logger: level filter, lines, hexadecimal messages, redirection", "statement": "For every history of slog calls: the level in force is the last valid argument of slog_set_min_level (VERBOSE at the start; invalid ones ignored); a message appears, as exactly one line `[L/tag] text` (with `(func:line)` for the trace macros), on the current destination, exactly when the level is not OFF and not above the message's; a hexadecimal message of at most 84 bytes prints the full dump; while files can be opened messages go to the file named last in slog_stdout2file. Longer hexadecimal messages lose a digit (85 bytes) or overflow the stack (86 or more); slog_back2stdout after a redirection uses a closed stream, and so does any message after a failed redirection.", "quantifier": "all histories of calls, all levels, tags, texts, byte arrays", "why_tests_cant": "histories and input sizes are unbounded", "anchors": ["src/log/slog.c:slog_set_min_level", "src/log/slog.c:slog_stdout2file", "src/log/slog.c:slog_back2stdout", "src/log/slog.c:__slog_internal_hex_print", "inc/log/slog.h:SLOGV"]}
{"id": "C75", "title": "Portable thread, mutex, rwlock and semaphore handles: life cycle", "statement": "For every history of portable_* calls and every answer of the system (including short memory and failing primitives): each pthread or semaphore object is initialised once, then used only with functions of its kind, then destroyed or joined at most once, and never touched afterwards; a mutex, rwlock or semaphore handle that is not NULL refers to a living object no other handle refers to; each call reaches exactly its primitive on the handle's object and returns its answer; initialising answers -1 / -2 / the primitive's answer and leaves NULL and no memory behind on failure; destroying frees the wrapper and sets the handle to NULL, so that later calls answer -1; without overwritten handles nothing leaks. Exactly two calls are undefined: unlocking through a NULL mutex handle and joining a handle already joined (also after a failed join).", "quantifier": "all histories of calls, all answers of malloc and of the primitives", "why_tests_cant": "histories and failure points are unbounded", "anchors": ["src/thread/portable_thread_posix.c:portable_thread_create", "src/thread/portable_thread_posix.c:portable_thread_join", "src/thread/portable_thread_posix.c:portable_mutex_init", "src/thread/portable_thread_posix.c:portable_mutex_lock", "src/thread/portable_thread_posix.c:portable_mutex_unlock", "src/thread/portable_thread_posix.c:portable_mutex_destroy", "src/thread/portable_thread_posix.c:portable_rwlock_init", "src/thread/portable_thread_posix.c:portable_sem_init", "src/thread/portable_thread_posix.c:portable_sem_destroy"]}
{"id": "C76", "title": "INI typed getters, save / parse_file and path detection", "statement": "For every history of puts and deletes and every stored text: get_long_long, get_long and get_int succeed exactly on C integers (white space, sign, decimal / octal / hexadecimal, nothing behind) and deliver the nearest 64-bit number (get_int: its low 32 bits); get_bool accepts the words true/yes/false/no as beginnings in any letter case and integers; get_double and get_float succeed exactly if the C library reads the whole text and else leave the output alone; a missing key, section or an empty value is reported without writing. The decimal text of any 64-bit number put under a key is read back by the getters. A document with a section saved to a file and parsed back gives the same value for every key; parse_file never leaks its FILE* and needs at least 6 bytes; is_file_path says 'content' exactly for texts that are empty, have several lines, or begin (after white space) with # or [.", "quantifier": "all histories, all texts, all numbers, all answers of the system", "why_tests_cant": "texts and histories are unbounded", "anchors": ["src/file/ini_parser.c:ini_parser_get_value", "src/file/ini_parser.c:ini_parser_get_bool", "src/file/ini_parser.c:ini_parser_get_int", "src/file/ini_parser.c:ini_parser_get_long", "src/file/ini_parser.c:parse_str2longlong", "src/file/ini_parser.c:ini_parser_save", "src/file/ini_parser.c:ini_parser_dump", "src/file/ini_parser.c:ini_parser_parse_file", "src/file/ini_parser.c:ini_parser_is_file_path", "src/file/ini_parser.c:ini_parser_has_section_key"]}
{"id": "C77", "title": "thpool_pause / thpool_resume stop and restart the workers", "statement": "For any number of pools, workers and calling threads and every schedule: when thpool_pause returns and until some thread calls thpool_resume or thpool_init, every worker of the pool either still has its signal pending or does nothing for the pool; workers of pools not being paused get no signal; if thpool_resume is called when every signal sent has been delivered (and each handler has reached its loop), every worker is back at work after at most two steps of its own, and nothing else can prevent it before the next pause.", "quantifier": "all pools, schedules, points of signal delivery", "why_tests_cant": "signals may be delivered at any instruction", "anchors": ["src/thread/thpool.c:thpool_pause", "src/thread/thpool.c:thpool_resume", "src/thread/thpool.c:thread_hold", "src/thread/thpool.c:thpool_init"]}
{"id": "C78", "title": "dlopen, dlsym, dlclose and dlerror on Windows: private modules stay private, errors are reported once", "statement": "In every history of dlopen, dlclose, dlsym and dlerror, with any answers and failures of Windows and malloc, no call accesses memory outside its objects, and: a module first opened with RTLD_LOCAL is not searched by dlsym(RTLD_DEFAULT), by dlsym of the program's handle or by RTLD_NEXT until it is opened without RTLD_LOCAL or goes away, while dlsym of its own handle finds its symbols; otherwise these searches return the first hit in load order (after the caller for RTLD_NEXT); a path of 260 bytes or more is refused without loading and '/' is passed as '\\\\'; after a failed call dlerror returns the text \"argument\": message (cut to the buffer, without the final CR LF) exactly once, after a successful call NULL; besides the private modules' records nothing stays allocated. (Excluded: closing a private module that stays loaded.)", "quantifier": "all histories, module sets, names, allocation and system failures", "why_tests_cant": "the private set depends on the whole history of loads and unloads; failures cannot be provoked in tests", "anchors": ["src/sys/dlfcn_windows.c:dlopen", "src/sys/dlfcn_windows.c:dlclose", "src/sys/dlfcn_windows.c:dlsym", "src/sys/dlfcn_windows.c:dlerror", "src/sys/dlfcn_windows.c:local_add", "src/sys/dlfcn_windows.c:local_rem", "src/sys/dlfcn_windows.c:save_err_str"]}
{"id": "C79", "title": "xlog: every line is made under one complete configuration, whatever other threads do", "statement": "After xlog_global_init, with any number of threads configuring and logging: configuring calls take effect one at a time and completely or not at all (values out of range change nothing); a getter returns the value of a configuration there was during the call; every logging call that is not filtered puts out exactly the console line, the flush and the callback demanded by one configuration, uninterrupted by output or configuration of other threads; a message is dropped only if a configuration during the call filtered it; function and data of a callback come from one xlog_set_user_callback; once logging is off and no call is under way nothing is put out until the level is set again; under fair scheduling every call returns, provided callbacks return and make no call that needs the lock (those deadlock). The same without xlog_global_init for a program that logs from one thread.", "quantifier": "all threads, calls, arguments and schedules", "why_tests_cant": "Interleavings of configuring and logging threads cannot be enumerated by tests.", "anchors": ["src/log/xlog.c:__xlog_internal_print", "src/log/xlog.c:xlog_set_target", "src/log/xlog.c:xlog_set_min_level", "src/log/xlog.c:xlog_set_format", "src/log/xlog.c:xlog_set_flush_mode", "src/log/xlog.c:xlog_set_timezone", "src/log/xlog.c:xlog_set_user_callback", "src/log/xlog.c:xlog_set_default_tag", "src/log/xlog.c:xlog_auto_level_up", "src/log/xlog.c:xlog_global_init", "src/log/xlog.c:xlog_global_cleanup", "src/log/xlog.c:xlog_stdout2file", "src/log/xlog.c:xlog_back2stdout"]}
{"id": "C80", "title": "strverscmp/versionsort (Windows): a strict order of names with numbers compared as numbers", "statement": "strverscmp of any two zero-terminated ASCII strings reads inside them and ends, and its sign is that of the documented comparison: the strings are compared at their first difference, numbers by length and then digits, numbers with leading zeros as fractions. It is zero exactly for equal strings, reversing the arguments reverses the sign, and it is transitive, so that sorting with it has one result. It agrees with the GNU C library's comparison except for one case: where the difference is outside a number and one string goes on with 0 and the other with a smaller non-digit or its end.", "quantifier": "all pairs and triples of zero-terminated strings", "why_tests_cant": "An order on all strings (transitivity over all triples) cannot be tested exhaustively.", "anchors": ["inc/sys/dirent_windows.h:strverscmp", "inc/sys/dirent_windows.h:versionsort"]}
{"id": "C81", "title": "Directory streams on Windows list the directory, and positions work, for every history of calls", "statement": "Whatever calls of opendir/_wopendir, readdir(_r)/_wreaddir(_r), rewinddir, telldir, seekdir and closedir (bytes or wide) a program makes on open streams, whatever the directories contain at each search, whichever allocations fail and whatever the locale can represent: every call is memory-safe, each stream yields the entries of its directory one after the other with name, type and offset of the next one, each stream is independent of the others, errno is the documented one, seekdir(telldir()) comes back to the same entry if no two names share a 31-bit hash, a name is complete when its bytes fit, and after the last closedir no memory and no search handle is left.", "quantifier": "all programs (adaptive sequences of calls of any length), all directory contents, all answers of Windows, allocator and locale", "why_tests_cant": "Histories and directory contents are unbounded; the code runs only on Windows; a leak of a search handle or a stale cache flag shows only in certain orders of calls.", "anchors": ["inc/sys/dirent_windows.h:opendir", "inc/sys/dirent_windows.h:_wopendir", "inc/sys/dirent_windows.h:readdir_r", "inc/sys/dirent_windows.h:_wreaddir_r", "inc/sys/dirent_windows.h:seekdir", "inc/sys/dirent_windows.h:telldir", "inc/sys/dirent_windows.h:rewinddir", "inc/sys/dirent_windows.h:closedir"]}
{"id": "C82", "title": "scandir returns exactly the accepted entries, sorted, or nothing at all", "statement": "scandir gives -1 and leaves memory and search handles exactly as they were if the directory cannot be opened or an allocation fails; otherwise it gives the number of entries the filter accepts and a table with one block of its own for each of them - a permutation of the accepted entries, sorted if compare is an order - and nothing else remains allocated; freeing the entries and the table brings memory back to what it was.", "quantifier": "all directories (any number of entries), filters, comparison functions, allocation failures at any point, any permitted behaviour of qsort", "why_tests_cant": "The number of entries and the point where memory runs out are unbounded; leaks on the error path are invisible to tests of the result.", "anchors": ["inc/sys/dirent_windows.h:scandir"]}
{"id": "C83", "title": "dladdr (Windows): the nearest exported symbol of the right module, or failure with *info unchanged", "statement": "For every 64-bit process image - any modules with any export tables, import tables and thunks, any answers of Windows - dladdr reads only the image tables and the bytes at valid addresses; it returns 0 and leaves *info alone exactly if the address is not valid, is an import thunk that leads nowhere, or belongs to no module with a file name of less than 520 bytes; otherwise it returns 1 with the module's file name and base address, and the name and address of the exported symbol nearest below the address (or below the address the import thunk at it jumps to), both NULL if there is none; there is exactly one such answer.", "quantifier": "all memory images with any number of exports and names, all addresses", "why_tests_cant": "Depends on every possible loaded image; runs only on Windows; bad boundaries in the table searches show only for particular addresses.", "anchors": ["src/sys/dlfcn_windows.c:dladdr", "src/sys/dlfcn_windows.c:fill_info", "src/sys/dlfcn_windows.c:get_export_symbol_name", "src/sys/dlfcn_windows.c:get_image_section", "src/sys/dlfcn_windows.c:get_address_from_import_address_table", "src/sys/dlfcn_windows.c:MyGetModuleHandleFromAddress"]}
{"id": "C84", "title": "lcu_global_init / lcu_global_cleanup: reference-counted creation and destruction of the library's locks", "statement": "For every serialised history of lcu_global_init, lcu_global_cleanup, LOG_INIT / LOG_DEINIT and uses of the logger and of the time functions, and whatever the system answers: no lock is used or destroyed that does not exist, each is initialised once and destroyed at most once, other handles of the program are untouched and nothing leaks. If the module functions are not called directly, locks can be created and fewer than 2^32 initialisations are outstanding, then each of the three locks exists exactly while initialisations are outstanding (a cleanup too many is ignored), all calls answer 0, and the logger and the time functions take their lock exactly then. Even if creations fail, after balanced calls the heap is what it was. From several threads: once an initialisation has returned and is kept, any number of further lcu_global_init calls may run concurrently; first calls or cleanups may not (findings).", "quantifier": "all histories of calls, all answers of malloc and pthread, all interleavings of concurrent lcu_global_init calls", "why_tests_cant": "The count depends on the whole history; the failure and race cases need particular answers of the system and schedules.", "anchors": ["src/lcu.c:lcu_global_init", "src/lcu.c:lcu_global_cleanup", "src/time/time_util.c:time_util_global_init", "src/time/time_util.c:time_util_global_cleanup", "src/log/xlog.c:xlog_global_init", "src/log/xlog.c:xlog_global_cleanup"]}
{"id": "C85", "title": "str_params: doubles and floats stored and read back; which texts are numbers", "statement": "After a successful str_params_add_double(k, x) with finite x below 10^31 (negative: above -10^30), str_params_get_double(k) answers 0 and a double of the same sign at most 10^-10 from x; exactly x if x has at most ten decimals or |x| >= 2^19; zero if |x| < 0.5e-10; infinities and NaN come back as such; other keys are unchanged. str_params_get_float after add_float: at most 2*10^-10 away, exactly x from 2^-9 on. Values from 10^31 on (negative: from 10^30) are silently cut to 31 characters: get_double answers 0 and at most a fifth of x (finding). For a stored text get_double answers 0 and a double nearest to its value exactly if the text is white space, an optional sign and one C floating constant (decimal, hexadecimal, inf, nan) with nothing behind; -EINVAL without touching the output otherwise; -ENOENT exactly if the key is absent.", "quantifier": "all doubles and floats, all texts, all reachable parameter sets, every rounding the C library may use within its contract", "why_tests_cant": "The range of doubles and of texts is not enumerable; the error bound and the exactness threshold are statements over all of them.", "anchors": ["src/mem/str_params.c:str_params_add_double", "src/mem/str_params.c:str_params_add_float", "src/mem/str_params.c:str_params_get_double", "src/mem/str_params.c:str_params_get_float"]}
{"id": "C86", "title": "The clocks: gettimeofday on Windows, time_util_current_ms, time_util_query_performance_ms", "statement": "On Windows, gettimeofday gives the system's clock cut to whole microseconds (0 <= tv_usec < 10^6), never going back while the system's clock does not, for every time from 1970 to 19 January 2038; from then on tv_sec is negative (finding). time_util_current_ms gives the whole milliseconds since 1970 for every time of day, on Windows until 2038. time_util_query_performance_ms (Windows) never runs backwards, is exact if 1000 divides the counter's frequency, and otherwise too fast by at most the factor freq/(freq - freq mod 1000); on POSIX it is the time of day. Called from any number of threads under any schedule, the two lazily set function pointers answer from the system's best clock and with the right frequency after a bounded number of the thread's own steps, without a call through NULL, provided the system has GetSystemTimePreciseAsFileTime or a first call was completed alone; otherwise a thread can call through NULL (finding).", "quantifier": "all file times, times of day, counters and frequencies; any number of threads and all schedules", "why_tests_cant": "Ranges of 2^64 values and all schedules of first calls; the year 2038 and systems without the precise clock are not at hand in a test.", "anchors": ["src/time/time_util.c:gettimeofday", "src/time/time_util.c:init_gettimeofday", "src/time/time_util.c:time_util_current_ms", "src/time/time_util.c:time_util_query_performance_ms", "src/time/time_util.c:init_get_milli_perf_freq", "src/time/time_util.c:get_cached_performance_freq"]}
{"id": "C87", "title": "thpool_init: a complete pool, NULL with nothing left behind, and everything freed by thpool_destroy", "statement": "Whatever malloc and pthread_create answer and under every schedule: if thpool_init(num) returns a pool, max(num,0) workers and no others run, the pool counts exactly them and its memory is exactly the pool, its semaphore, its table and one record per worker; if it returns NULL, everything it allocated is freed, each block once, and no thread was made. If one of the first three allocations is refused it returns NULL after at most three steps; if nothing is refused it returns a pool in every fair execution. thpool_destroy of such a pool, once the workers have left, frees every block exactly once. If a thread record or a thread is refused, thpool_init never returns (finding), and pthread_detach gets an unset thread id (finding).", "quantifier": "all numbers of threads, all answers of malloc and pthread_create, all schedules of the caller and the new threads (progress: all fair ones)", "why_tests_cant": "Refusals by the system cannot be provoked at each call, and non-termination cannot be observed by a test.", "anchors": ["src/thread/thpool.c:thpool_init", "src/thread/thpool.c:thread_init", "src/thread/thpool.c:jobqueue_init", "src/thread/thpool.c:jobqueue_destroy", "src/thread/thpool.c:thread_destroy", "src/thread/thpool.c:thpool_destroy"]}
{"id": "C88", "title": "Queue handlers: all-or-nothing creation, ordered callbacks, complete destruction", "statement": "For msg_queue_handler and fixed_msg_queue_handler, whatever the system grants or refuses and under every schedule: create returns (within 12 steps of its thread) a handle exactly if the arguments are valid and memory, queue and thread were granted; if it returns NULL nothing stays allocated, no thread exists and no callback was or will be called. READY_TO_GO is reported first, ABOUT_TO_STOP last, each at most once, messages only in between; after ABOUT_TO_STOP every push is refused and no callback is called. Pushes are not refused while the worker serves and destroy was not called. Once destroy has set its flag at most one more message is handled; destroy returns after a bounded number of steps of its thread and the worker; then everything is freed, the status callbacks were both made and none follows. No block is used after it was freed. Findings: destroying the handler from its own message callback is a use after free; a refused semaphore is ignored; a worker refused its first buffer leaves a valid handle that never handles a message.", "quantifier": "all answers of the system, all interleavings of the creating/destroying thread and the worker, any number of messages, any answers of the callbacks", "why_tests_cant": "Interleavings of destroy with a message in progress and refusals at each point cannot be enumerated by tests.", "anchors": ["src/ring/msg_queue_handler.c:msg_queue_handler_create", "src/ring/msg_queue_handler.c:msg_queue_handler_destroy", "src/ring/msg_queue_handler.c:thread_worker_handle_msg", "src/ring/fixed_msg_queue_handler.c:fixed_msg_queue_handler_create", "src/ring/fixed_msg_queue_handler.c:fixed_msg_queue_handler_destroy", "src/ring/fixed_msg_queue_handler.c:thread_fun_handle_msg"]}
{"id": "C89", "title": "Constructors are all-or-nothing, destructors give back exactly what was taken", "statement": "For RingBuffer, ring_buf, msg_queue, fixed_msg_queue, auto_cover_buf, stringbuilder and array, whatever malloc answers: the constructor has no undefined behaviour, returns a handle exactly if the size is acceptable and every block was granted, and otherwise leaves no block behind; it changes no other block; the new object is empty (read and write positions or length 0), has the documented capacity, and its storage lies behind its structure inside its own blocks. Whatever happens to the object and to the rest of the heap meanwhile (growth of builders and arrays included, granted or refused), the destructor frees exactly the object's blocks, each once, changes no other block and leaves NULL in the handle; a ring in the caller's memory is never freed. Destroying NULL is harmless (except msg_queue_destroy, finding).", "quantifier": "all sizes (rings up to 2^30), all answers of malloc, all heaps, any history of the object between construction and destruction that keeps its ownership fields; any sequence of growth attempts", "why_tests_cant": "Leaks and double frees on refusal paths need a failing allocator at every call; heaps cannot be enumerated.", "anchors": ["src/ring/ringbuffer.c:RingBuffer_create", "src/ring/ringbuffer.c:RingBuffer_destroy", "src/ring/ring_buf.c:ring_buf_create", "src/ring/ring_buf.c:ring_buf_destroy", "src/ring/msg_queue.c:msg_queue_create", "src/ring/msg_queue.c:msg_queue_destroy", "src/ring/fixed_msg_queue.c:fixed_msg_queue_create", "src/ring/fixed_msg_queue.c:fixed_msg_queue_destroy", "src/ring/autocover_buffer.c:auto_cover_buf_create", "src/ring/autocover_buffer.c:auto_cover_buf_destroy", "src/mem/stringbuilder.c:stringbuilder_create", "src/mem/stringbuilder.c:stringbuilder_destroy", "src/data/array.c:array_new_with_init_capacity", "src/data/array.c:array_free"]}
{"id": "C90", "title": "str_params: reading a text when memory runs out", "statement": "str_params_create_str returns NULL and keeps nothing if the object, its map, its table or the working copy is refused. Otherwise it returns an object whatever else is refused, provided every key could be copied or no key of the text has the 32-bit hash of NULL: each key then has exactly the value that follows from the pairs in order, where a pair without an entry is dropped and a pair whose value was refused leaves its key without a value (even if an earlier pair had set it); get_str never yields a value the text does not give that key; destroying the object leaves exactly the blocks the code loses track of (the key copy of every repeated key, both copies of every pair without an entry). If a key copy is refused, asking for the empty key is undefined behaviour, and there are texts for which the parsing itself is.", "quantifier": "all texts, delimiters, patterns of refusal of every single request, keys asked for, output buffers", "why_tests_cant": "Needs a failing allocator at every combination of calls, and keys colliding with the hash of NULL.", "anchors": ["src/mem/str_params.c:str_params_create_str", "src/mem/str_params.c:str_params_create", "src/mem/str_params.c:str_params_destroy", "src/mem/str_params.c:str_hash_fn", "src/data/hashmap.c:hashmap_put"]}
{"id": "C91", "title": "str_params_to_str when memory runs out", "statement": "For any object built by calls, and whatever asprintf/strdup requests are refused: str_params_to_str has no undefined behaviour, returns NULL or a text in one block owned by the caller, and leaves nothing else allocated. If nothing is refused the text lists all pairs. If the i-th request is the first refused, the text lists none of the pairs visited up to it but may list later ones, and is returned as if it were complete. An object with a missing value (C90) makes it pass NULL to %s.", "quantifier": "all objects reachable by histories of calls, all patterns of refusal", "why_tests_cant": "Needs a failing allocator at each call; the outcome depends on the bucket layout.", "anchors": ["src/mem/str_params.c:combine_strings", "src/mem/str_params.c:str_params_to_str", "src/data/hashmap.c:hashmap_foreach"]}
{"id": "C92", "title": "ini_reader on files and on any reader function", "statement": "Whatever reader function is passed to ini_reader_parse_stream, if it gives the lines l1..ln and then NULL, the handler is told and the call returns exactly what the INI rules say for these lines, without leaving any buffer. ini_reader_parse returns -1 without calling the handler if the file cannot be opened; otherwise it closes the file and treats a readable file without NUL bytes exactly as ini_reader_parse_string treats its content. A NUL byte silently hides the rest of its line; a read error is not reported: the result is that of the complete lines before it.", "quantifier": "all reader functions keeping the contract, all file contents (NUL bytes included), all points of a read error, all handlers", "why_tests_cant": "Needs every reader, every content and an I/O error at every byte.", "anchors": ["src/file/ini_reader.c:ini_reader_parse_stream", "src/file/ini_reader.c:ini_reader_parse_file", "src/file/ini_reader.c:ini_reader_parse"]}
{"id": "C93", "title": "The memory checker used by many threads", "statement": "With the memory checker on, any number of threads may call lcu_malloc, lcu_free and allocation_tracker_ptr_size and use their own blocks at the same time: no call aborts or does anything undefined, no deadlock occurs, in every fair infinite execution every call returns, blocks never overlap, lcu_malloc returns NULL or a block of the size asked for, the size query returns that size, no call changes a byte of somebody else's block, a freed block goes back to the C library once. A leak check may run while blocks are freed: it reports every block in use exactly once with its size, otherwise only blocks just being freed, and returns the sum. When no call is running the checker knows exactly the blocks in use. A leak check while another thread is inside lcu_malloc is not safe.", "quantifier": "all numbers of threads, all interleavings of the pieces of all calls, all sizes, all addresses and contents the C library gives", "why_tests_cant": "Needs every interleaving of every call history, with the hash map's lock taken call by call.", "anchors": ["src/mem/allocator.c:lcu_malloc_trace", "src/mem/allocator.c:lcu_free", "src/mem/allocation_tracker.c:allocation_tracker_notify_alloc", "src/mem/allocation_tracker.c:allocation_tracker_notify_free", "src/mem/allocation_tracker.c:allocation_tracker_ptr_size", "src/mem/allocation_tracker.c:allocation_tracker_expect_no_allocations", "src/data/hashmap.c:hashmap_foreach"]}
{"id": "C94", "title": "An auto-cover buffer with a lock, used by many threads", "statement": "When an auto-cover buffer is created with a lock, any number of threads may call auto_cover_buf_write, auto_cover_buf_read and auto_cover_buf_available_read on it at the same time: the results, the bytes delivered and the buffer's contents are those of the same calls made one after the other, each at some moment between its invocation and its return; so they follow the sliding window of everything written in that order, no call aborts or touches memory it should not, there is no deadlock, and if the scheduling is fair every call returns. Without a lock this fails: a reader can get half-overwritten bytes reported as success, or the program aborts.", "quantifier": "all numbers of threads, all histories of calls, all interleavings of the single accesses of all calls", "why_tests_cant": "Needs every interleaving of the accesses of every call history.", "anchors": ["src/ring/autocover_buffer.c:auto_cover_buf_write", "src/ring/autocover_buffer.c:auto_cover_buf_read", "src/ring/autocover_buffer.c:auto_cover_buf_available_read", "src/ring/autocover_buffer.c:auto_cover_buf_internal_read", "src/ring/ringbuffer.c:RingBuffer_read", "src/ring/ringbuffer.c:RingBuffer_write"]}
{"id": "C95", "title": "A hash map with a lock, used by many threads", "statement": "When a hash map is created with a lock, any number of threads may call hashmap_put, hashmap_get, hashmap_remove, hashmap_clear and hashmap_foreach on it at the same time: results and free callbacks are those of a dictionary on which the same calls are made one after the other, each at some moment between its invocation and its return; a foreach visits pairs of the dictionary, none twice, all of them if its callback never stops it; no call touches memory it should not, there is no deadlock, and if the scheduling is fair every call returns. hashmap_size does not take the lock: at any moment it returns the number of keys before or after the call in progress, or, while a clear is in progress, any number up to the number of keys, so it is not linearizable. Without the lock entries get lost.", "quantifier": "all numbers of threads, all histories of calls, all interleavings of the single accesses of all calls, all hash functions and compatible equalities, all patterns of allocation failures", "why_tests_cant": "Needs every interleaving of the accesses of every call history.", "anchors": ["src/data/hashmap.c:hashmap_put", "src/data/hashmap.c:hashmap_get", "src/data/hashmap.c:hashmap_remove", "src/data/hashmap.c:hashmap_clear", "src/data/hashmap.c:hashmap_foreach", "src/data/hashmap.c:hashmap_size", "src/data/hashmap.c:expandIfNecessary"]}
{"id": "C96", "title": "A memory pool with a lock, used by many threads", "statement": "When mplite_init is given a lock, any number of threads may call mplite_malloc, mplite_calloc, mplite_free, mplite_realloc, mplite_resize, mplite_maxmem and mplite_freemem at the same time and use the blocks they own (and pass them on to each other): no step faults; at any time the pool is one that a sequential history of calls and stores makes; the blocks owned are large enough, aligned, inside the pool and disjoint, whoever owns them, and hold what their owners stored, what calloc zeroed and what realloc copied; the size that realloc and resize read before they take the lock is still the size of the block when it is used; a request fails only if no aligned window of its rounded size is free; freemem and maxmem are exact; every call ends after a bounded number of own steps, there is no deadlock, and if the scheduling is fair every call returns. The steps done without the lock (the size, the memset of calloc, the clients' stores) give the same result whether they come before or after a locked section of another thread.", "quantifier": "all buffer sizes and minimum sizes mplite_init is meant for, all numbers of threads, all histories of calls, stores and passing on of blocks, all interleavings of locked sections, unlocked size reads, the single bytes of memset and stores", "why_tests_cant": "Needs every interleaving of unlocked steps and locked sections of every history of calls.", "anchors": ["src/mem/mplite.c:mplite_malloc", "src/mem/mplite.c:mplite_calloc", "src/mem/mplite.c:mplite_free", "src/mem/mplite.c:mplite_realloc", "src/mem/mplite.c:mplite_resize", "src/mem/mplite.c:mplite_maxmem", "src/mem/mplite.c:mplite_freemem"]}
{"id": "C97", "title": "The blocks of an ini parser when memory runs out", "statement": "ini_parser_create, ini_parser_parse_str and every sequence of put, get, delete key and delete section (of a section that is not the one created last) on the parser touch and free only blocks that are allocated and belong to the parser, whichever requests for memory are refused and however the allocator reuses freed blocks; blocks of others are unchanged. ini_parser_parse_str returns NULL or a parser with the complete document, never a part of it. A put that does not report success leaves every entry of every section as it was (at most an empty section is added). With memory available the calls answer as the document of C43 says. ini_parser_destroy gives every block back; when requests were refused at most one empty list per call that reported lack of memory stays allocated (and such a leak happens).", "quantifier": "all heaps, all allocators that return free non-NULL cells (any pattern of refusals, any reuse), all texts, all sequences of calls", "why_tests_cant": "Every pattern of failing allocations over every history would have to be tried; leaks and use after free need all heap layouts.", "anchors": ["src/file/ini_parser.c:ini_parser_parse_str", "src/file/ini_parser.c:search_target_section", "src/file/ini_parser.c:ini_parser_put_string", "src/file/ini_parser.c:ini_parser_delete_section", "src/file/ini_parser.c:ini_parser_destroy", "src/data/list.c:list_remove"]}
{"id": "C98", "title": "ring_buf between one writer thread and one reader thread", "statement": "One thread calling ring_buf_write and another calling ring_buf_read, ring_buf_peek and ring_buf_discard on the same ring, without a lock and in any interleaving of their single byte copies and offset stores: every read or peek returns 0 or its full length and delivers exactly the next bytes of the stream of accepted writes, each write is accepted whole or refused whole, no unread byte is overwritten, the two threads never touch the same byte at the same time and never leave the ring, the caller's source or its target. A write is refused exactly when its length is 0 or does not fit beside the bytes not yet consumed, a read exactly when its length is 0 or more than those bytes; what ring_buf_available_write (ring_buf_available_read) showed a thread stays available to it until its own next call. ring_buf_clear must not run beside a write: it makes the reader receive old bytes again.", "quantifier": "all ring sizes up to 2^63, all sequences of calls of both threads, all interleavings of their steps (sequentially consistent memory), any order of the bytes inside memcpy", "why_tests_cant": "A stress test visits a vanishing part of the interleavings; the window between copying the bytes and storing the offset is a few instructions wide.", "anchors": ["src/ring/ring_buf.c:ring_buf_write", "src/ring/ring_buf.c:internal_ring_buf_read", "src/ring/ring_buf.c:ring_buf_available_read", "src/ring/ring_buf.c:ring_buf_available_write", "src/ring/ring_buf.c:ring_buf_clear"]}
{"id": "C99", "title": "ring_buf between two threads on a machine with store buffers (TSO)", "statement": "One thread calling ring_buf_write and another calling ring_buf_read, ring_buf_peek and ring_buf_discard without a lock on a machine whose stores become visible late but in order (x86 total store order): every read or peek returns 0 or its full length and delivers exactly the next bytes of the stream of accepted writes; neither thread leaves the ring, the source or the target; no byte the reader copies has a store still pending; what a thread sees of the other is old at worst, never too optimistic; once the stores have arrived the ring holds exactly the unread bytes. On a machine that reorders stores to different addresses the reader can receive a byte that was never sent.", "quantifier": "all ring sizes up to 2^63, all sequences of calls of both threads, all interleavings of their steps and of the moments at which pending stores reach memory", "why_tests_cant": "Store buffering is not under a test's control; the failing window on weaker machines is nanoseconds wide and absent on the test machine.", "anchors": ["src/ring/ring_buf.c:ring_buf_write", "src/ring/ring_buf.c:internal_ring_buf_read", "src/ring/ring_buf.c:ring_buf_available_read", "src/ring/ring_buf.c:ring_buf_available_write"]}
{"id": "C100", "title": "The zone offset and the clock of log file names", "statement": "For every time zone (any history of offsets), every instant and every mktime that keeps its contract: time_util_zone_offset_seconds_to_utc answers the offset in force if the zone's offset does not change within its largest offset around now (always in a zone without changes); otherwise it answers the offset at the instant 'now minus the answer' (finding: for an hour after summer time begins, the old one). The name of a log file shows the civil time of the whole hours of that offset: the local time in zones of whole hours, less than an hour off in others (finding: half an hour slow in India). xlog_set_timezone takes -12..12 and ignores everything else (finding: +13 and +14 exist).", "quantifier": "all zones, all instants, all mktime implementations within the contract, all log file times from 1970 to 2038", "why_tests_cant": "A test runs in one zone at one time; the wrong answers appear during a few hours per year or in other countries.", "anchors": ["src/time/time_util.c:time_util_zone_offset_seconds_to_utc", "src/log/file_logger.c:file_logger_init", "src/log/file_logger.c:handle_log_queue_msg", "src/log/xlog.c:xlog_set_timezone"]}
{"id": "C101", "title": "asprintf: exactly the text in a block of its own, or nothing", "statement": "For every text, every heap and every answer of malloc: vscprintf answers the number of bytes a following vsnprintf with the same argument list writes, -1 exactly if formatting fails or the length is no int, and leaves the caller's argument list alone. asprintf/vasprintf (MSVC) answer the length and set *strp to a new block of exactly length+1 bytes with the text and a NUL; on any failure (either pass, no memory) they answer -1 with *strp and every block as before. Even if a string argument changes between the two passes nothing outside the new block is written (findings: the answer can then lie beyond the block; a text of INT_MAX bytes makes len + 1 overflow).", "quantifier": "all texts (both passes independently), all heaps, all answers of malloc, all contents of fresh memory", "why_tests_cant": "Allocation failures, failing second passes and changes between the passes do not occur in tests; the length bound needs a 2 GiB text.", "anchors": ["src/mem/asprintf.c:vscprintf", "src/mem/asprintf.c:vasprintf", "src/mem/asprintf.c:asprintf", "inc/mem/asprintf.h:vscprintf"]}
{"id": "C102", "title": "File sizes by stream and by path", "statement": "For every stream (any file, position, buffered output), every width of long and every pattern of failing library calls: file_util_get_size_by_fs answers the size of the file with everything written to the stream so far and leaves the stream at position 0, so that reading that many bytes gives the whole file; -1/-2/-3 say what failed, after -2 the stream is untouched, after -3 it is at its end. file_util_get_size_by_path answers st_size if it is a long, -1 if stat fails; both agree exactly if no buffered output makes the file longer (finding: where long has 32 bits and st_size 64, sizes are reported modulo 4 GiB).", "quantifier": "all files, stream positions, buffered bytes, widths of long, failure patterns", "why_tests_cant": "Needs files of more than 2 GiB, pipes and failing seeks.", "anchors": ["src/file/file_util.c:file_util_get_size_by_path", "src/file/file_util.c:file_util_get_size_by_fs"]}
{"id": "C103", "title": "file_logger: many threads log at once, no message is torn", "statement": "For every number of threads calling file_logger_log concurrently on one handle configured with a lock, every interleaving of their individual memory accesses, all messages (shorter than 2^31 bytes), all answers of realloc, the queue and fopen: there is one order of the calls, each at a moment between its invocation and its return, in which every call hands the queue its own message whole (once, or twice if the first push fails and try_my_best_to_keep_log is set) and answers what its own last push answered; the queue accepted exactly the messages of the calls that answered success, once each, and once the queue has made these pushes the log files hold the lines of a prefix of them in that order (all of them when the worker sleeps); the lost file holds the texts of the refused ones, whole. Nothing undefined happens, the message cache is the only block, there is no deadlock, and if the scheduling is fair every call returns. Without a lock two concurrent calls can both answer success while one message is lost and the other torn, or write to freed memory.", "quantifier": "all numbers of threads, all interleavings at the granularity of single accesses, all messages, all answers of realloc/push/fopen", "why_tests_cant": "A stress test sees a few schedules; the enlargement of the shared cache between two accesses of another thread is a window of nanoseconds.", "anchors": ["src/log/file_logger.c:file_logger_log", "src/log/file_logger.c:file_logger_init", "inc/log/file_logger.h:file_logger_lock_t"]}
{"id": "C104", "title": "Cached time strings with many threads, at the granularity of single accesses", "statement": "For any number of threads calling time_util_get_time_str_current / time_util_get_time_str_for_file_name_current, any times (from one second after the epoch to 2^31-1), zones and arrays of TIME_STR_SIZE bytes, and every interleaving of their individual loads and stores of the shared cache (each byte of its text, its zone, seconds, microseconds): if the cache's reader/writer lock exists, every call that has returned has written exactly the text of its own time and answered its length - never another call's text, never a mixture; nothing outside the array and the cache is touched, some call can always go on, and n calls make at most 100 n steps, so all return. If the lock does not exist (library not initialised; always on Windows, see C105) the same code can return times that are 59 minutes too early or one second too late.", "quantifier": "all numbers of threads, times, zones, arrays, all interleavings of single accesses", "why_tests_cant": "The window is the copying of 19 bytes while another thread's second changes; the wrong result needs a change of minute or hour at that instant.", "anchors": ["src/time/time_util.c:get_time_str", "src/time/time_util.c:time_util_get_time_str_current", "src/time/time_util.c:time_util_get_time_str_for_file_name_current", "src/time/time_util.c:TIME_UTIL_RD_LOCK", "src/mem/strings.c:strlcpy"]}
{"id": "C105", "title": "Statically initialised mutexes of the simple Windows layer", "statement": "With the simple Windows pthread layer, any number of threads may call pthread_mutex_lock / pthread_mutex_unlock on one variable that holds a static initialiser, in any interleaving of their single accesses, with calloc failing at any point: at most one critical section is ever made, the variable keeps the initialiser until then and that object's address ever after, two threads never hold the mutex at once, the initialiser is never followed as an address, lock answers 0 (and then the caller holds the mutex) or ENOMEM (and then nothing has changed and a later lock works), and a thread in a call can go on unless an idle thread holds the mutex; in every fair infinite execution in which nobody keeps the mutex for ever, every call returns. The safety part also holds with the store buffers of x86 (TSO). pthread_rwlock_init on the same layer refuses a zeroed variable, so portable_rwlock_init can never succeed on it.", "quantifier": "all numbers of threads, interleavings, allocation failures", "why_tests_cant": "The race is between two first users of a static mutex; a test practically never meets it.", "anchors": ["src/thread/pthread_win_simple/pthread_win_simple.c:pthread_mutex_lock", "src/thread/pthread_win_simple/pthread_win_simple.c:pthread_mutex_unlock", "src/thread/pthread_win_simple/pthread_win_simple.c:pthread_mutex_init", "src/thread/pthread_win_simple/pthread_win_simple.c:pthread_mutex_destroy", "src/thread/pthread_win_simple/pthread_win_simple.c:pthread_rwlock_init", "src/thread/portable_thread_posix.c:portable_rwlock_init"]}
{"id": "C106", "title": "The memory hash hashmap_hash", "statement": "hashmap_hash(key, n) reads exactly the n bytes of the key. Computed modulo 2^32, as the comment in the code expects, it is n*31^n + c_1*31^(n-1) + ... + c_n: it depends on nothing but the key's bytes, so keys with equal bytes have equal hashes, and two keys that differ in one byte have different hashes. Where C defines the result it is that very number; for keys of up to five bytes it always does, for ASCII keys of six bytes and for all keys of seven bytes or more it never does (signed overflow).", "quantifier": "all objects, positions, sizes and contents of keys", "why_tests_cant": "Equality of hashes and absence of overflow are claims about every content of the key.", "anchors": ["src/data/hashmap.c:hashmap_hash", "inc/data/hashmap.h:hashmap_hash"]}
{"id": "C107", "title": "The statistics report mplite_print_stats", "statement": "After any history of calls on a pool in which fewer than 2^32 blocks and bytes were given out in all, mplite_print_stats hands its callback exactly eight complete lines with the numbers of that history, in the documented order; once 4 GiB have been given out in all the line for the total is wrong (a pool of 400 bytes gets there). Beside other threads that allocate and free, the report never shows a maximum below the current value provided the current values are read between calls; since the function takes no lock this proviso can fail, and then it can report more bytes in use than the maximum it reports.", "quantifier": "all histories of calls, pool sizes and parameters; all interleavings of the stores of other threads' calls with the reads", "why_tests_cant": "Counters depend on the whole history; the race is between single stores.", "anchors": ["src/mem/mplite.c:mplite_print_stats", "src/mem/mplite.c:mplite_malloc_unsafe", "src/mem/mplite.c:mplite_free_unsafe"]}
{"id": "C108", "title": "Names of threads", "statement": "On Linux, portable_thread_set_current_name answers 0 exactly if the calling thread now bears the given name (in builds without pthread_setname_np: its first 15 bytes), and otherwise answers -1 (NULL or empty name) or 34 (too long) and changes nothing; it never changes another thread's name. However the making of threads and their naming by themselves, by their creators and by thread pools interleaves, every thread bears the name of the last naming that took effect, or else its creator's at the time it was made. Names of 16 bytes or more given to portable_thread_create are lost without a sign. The workers of a pool bear complete and different names as long as their numbers are below 10^8.", "quantifier": "all names, numbers of threads, histories and interleavings", "why_tests_cant": "Interleavings of namings by several threads, and all names.", "anchors": ["src/thread/posix_thread.c:posix_thread_set_current_name", "src/thread/portable_thread_posix.c:portable_thread_set_current_name", "src/thread/portable_thread_posix.c:portable_thread_create", "src/thread/thpool.c:thread_do"]}
{"id": "C109", "title": "The logging facade", "statement": "A program written against the logging facade (set minimum level, log, log with function and line, log hexadecimal) shows the same messages in the same order whether it is built with the simple logger or with xlog: exactly those whose level is not below the last minimum level set in OFF..ERROR (VERBOSE at the start), nothing at OFF; the two builds report the same minimum level at the end and print the same number of lines. Each line carries the level's letter, the tag (xlog: its first 22 characters in at least 8 columns, behind the time of the call), function and line if given, and the whole text. Hexadecimal messages agree up to 84 bytes; beyond, the builds differ, as they do for function names of 512 characters and for texts that contain a NUL. A program of redirections and messages that is defined with xlog is defined with slog and sends every message to the same destination; the reverse fails for a second redirection.", "quantifier": "all programs of any length, all levels, strings within the stated limits, times and thread numbers", "why_tests_cant": "The agreement of two loggers on every program; all histories of levels.", "anchors": ["inc/log/logger_facade.h:LOG_SET_MIN_LEVEL", "inc/log/logger_facade_slog.h:_LOG_SET_MIN_LEVEL_IMPL", "inc/log/logger_facade_xlog.h:_LOG_SET_MIN_LEVEL_IMPL", "inc/log/slog.h:_SLOGV_IMPL", "src/log/xlog.c:__xlog_internal_print"]}
