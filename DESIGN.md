# Formal model of wind0ws/libcutils in Lean 4

## Method
* Model: total, computable Lean functions, one per C function, each citing file:lines in /repo.
* C undefined behaviour (out-of-bounds access, use after free, signed overflow where it matters) is a
  *distinct outcome* of the model (`none`/`.ub`), never assumed away; theorems prove it is not reached,
  or exhibit an input that reaches it.
* Spec: small, independent of the model (mathematical FIFO, finite map, list, Gregorian calendar, ...).
* Layout: `lean/Verif/<Component>/{Model,Spec,Lemmas,Props}.lean`; theorems that carry a claim are in `Props`.
* Where the code violates its documentation: a negation theorem with a concrete witness plus a `_partial`
  theorem giving the guarded property that does hold.

## Trusted base
* Lean 4.33.0 kernel; axioms at most `propext`, `Classical.choice`, `Quot.sound`.
* Reading of the C code: LP64 data model (size_t 64 bit, int/unsigned 32 bit), 8-bit chars.
* Library functions (memcpy, strlen, malloc, pthread mutex/semaphore, ...) are modelled by their
  standard contract; malloc/realloc failure is a nondeterministic input where it matters.
* Concurrency: sequentially consistent interleavings of the listed atomic steps. Weak memory is modelled only for the lock-free ring and the queues on it (Tso, MsgTso, FixedTso: store buffers); nowhere else.

## Plan per property
| id | model | proof |
|----|-------|-------|
| C01, C02 | integer.c over `BitVec 32` | bitwise/`testBit` argument, negation witness for C02 |
| C03, C04 | ring_buf.c: offsets + byte array, OOB = ub | refinement to `List` FIFO, induction over op lists |
| C05, C06 | ringbuffer.c: `BitVec 32` free-running counters | refinement, wrap-around arithmetic mod 2^32 |
| C07 | two-thread small-step system, per-byte copy | inductive invariant over all interleavings |
| C08, C09 | fixed_msg_queue.c over RingBuffer model | refinement to FIFO of messages; capacity negation |
| C10-C12 | msg_queue.c over RingBuffer model | refinement to FIFO of messages; negation for C12 |
| C13 | msg_queue over SPSC system | invariant |
| C14-C16 | autocover_buffer.c over RingBuffer | stream-window invariant; negation for C16 |
| C17-C20 | hashmap.c: bucket lists | refinement to finite map; ownership ledger; negation for foreach stop |
| C21, C22 | list.c: node heap with next pointers | refinement to `List` |
| C23 | array.c | invariant |
| C24, C25 | base64.c | round trip by induction on 3-byte groups |
| C26, C27 | url_encoder_decoder.c with bounded output buffer | induction over the input |
| C28-C32 | strings.c | direct; negation for char2hex |
| C33 | stringbuilder.c | invariant/refinement |
| C34-C36 | str_params.c over hashmap model | refinement, print/parse round trip |
| C37-C40 | mplite.c: ctrl bytes + free lists | buddy tiling invariant |
| C41, C42 | allocation_tracker.c, allocator.c | invariant; negation |
| C43-C46 | ini_parser.c, ini_reader.c | refinement; negations for UAF and truncation |
| C47, C48 | file_util.c | induction over short-count schedules |
| C49, C50 | time_util.c | calendar arithmetic; cache invariant |
| C51, C52 | handlers: pusher/worker/clear/destroy transition systems on top of the two-thread queues | inductive invariants; progress of the worker running alone; C51 and C52 also: liveness in all infinite fair executions, by a step bound on queue operations (a running operation copies each byte once) and a ranking of the worker |
| C61 | fixed_msg_queue push/pop as programs over the two-thread ring | inductive invariant, sequential refinement |
| C53, C54, C62 | thpool.c transition system | inductive invariants (linked queue, counters, job ownership, wake-up token, waiters) and a decreasing measure; liveness in every strongly fair infinite execution (Thpool/FairProps.lean, Common/Fair.lean) by well-founded ranks |
| C55, C56 | Windows MCS lock and rwlock transition systems | inductive invariants; C55 starvation freedom over all weakly fair infinite executions; C56 writers never starve, readers do not once writers stop, over all (strongly) fair infinite executions; lazy initialisation with store buffers and failures: inductive invariant (Lazy) |
| C64 | Windows thread record life cycle, one step per access | inductive invariant per record, rank for progress; fair infinite executions without bound on the number of threads |
| C63 | Windows condition variable transition system, ghost counters of promised and delivered wake-ups | inductive invariant (sums over threads), delivery by induction on the open wake-ups; delivery and return over all strongly fair infinite executions |
| C58-C60 | file_util.c: mkdirs over an arbitrary file system, read_txt, read_all | induction over the path / the file |
| C66 | hash_functions.c with C's int/long ranges | modular inverse of the multiplier; induction on the string |
| C67 | time_rfc1123.c, time_rfc2822.c, interpreter of the strftime formats | calculation; separate spec of texts and weekday |
| C68 | file_iterator.c over an abstract file system | inductive specification of a visit; induction on the stream |
| C69 | semaphore_win_simple.c 133-312: LTS with one step per kernel call | counting invariant; liveness over fair infinite executions (WinSem/Fair.lean) |
| C70 | semaphore_win_simple.c 43-124, 180-222, 321-385 over a model of the kernel's name space | counting invariant, case analysis, injectivity of the address text |
| C71 | ringbuffer.c 170-270 on a store-buffer machine (byte stores and counter stores buffered, drains nondeterministic) | inductive invariant over the pending stores: every pending `in` finds the bytes it publishes in place |
| C72 | msg_queue.c 38-100 (programs of C13) on the machine of C71 | invariant: every published value of `in` is a frame boundary or just after a header |
| C73 | fixed_msg_queue.c 37-58 (programs of C61) on the machine of C71 | inductive invariant |
| C74 | slog.c, slog.h macros as a state machine over level, destination of stdout and fp_out | induction on the history; char2hex of C03 |
| C75 | portable_thread_posix.c function by function over an abstract heap of wrappers and a trace of primitive calls | inductive invariant through six elementary changes |
| C76 | ini_parser_get_value, save, dump, parse_file, is_file_path over the C43 parser model; strtoll by the C36 model | reduction to C43/C45 representation lemmas and the C36 grammar of integers |
| C77 | threads_on_hold, the handler and the two calls as a transition system with signal delivery at any time | invariants by induction over executions |
| C78 | The linked list of local objects in a heap, the error buffer as bytes, the loader's module list | refinement of a small transition system (Spec.Step), induction over histories |
| C79 | transition system, each load/store of the configuration, lock, unlock and output a step | forward simulation to a specification automaton over observable effects; liveness over fair infinite executions (Fair) |
| C80 | the loops over two memory objects, undefined behaviour as none | loop lemmas, equality with the GNU automaton with two table entries changed |
| C81 | heap of DIR/_WDIR/pattern blocks, table of search handles, Windows and the locale as arbitrary answers | abstract streams (pattern, remaining entries); representation invariant with ownership of blocks and handles preserved by every call; histories by induction |
| C82 | loop with temporary block, growing table and arbitrary allocator answers | loop invariant over the blocks owned by the call (distinct, fresh), induction over the entries; error and success paths release everything else |
| C83 | process memory as readable bytes, PE32+ headers and tables byte by byte | loop invariants of the two table searches, uniqueness of all specification predicates, case analysis |
| C84 | the counter and the three handles over the handle model of C75; threads as step machines | invariant relating heap, handles and counter, by induction over histories and schedules |
| C85 | doubles as sign, significand, exponent over the rationals; %.10f and strtod as text functions | printed text parsed back, distance bound and grid of doubles; grammar of floating constants against the scanner |
| C86 | conversions as 64-bit arithmetic; the function pointers as step machines | arithmetic for all values; invariant and rank over all schedules |
| C87 | blocks, caller and starting workers as a step machine with the system's answers as inputs | invariant over all schedules, rank for fair progress |
| C88 | creating/destroying thread and worker as a step machine; blocks are flags, the system's answers inputs | invariant over all schedules, counting argument for termination |
| C89 | blocks with sizes, fields by block and offset, malloc's answers as input | symbolic execution of each function, ownership invariant for growth |
| C90 | every request of create_str with its own answer; NULL keys and values in the map | invariant over the parsing loop; the map's hash mixing is injective, so a comparison with NULL needs a key with the same djb hash |
| C91 | combine_strings with the answers of asprintf as input, texts counted | invariant over the walk: what is kept was visited after the first refusal |
| C92 | the line loop with an arbitrary reader; fgets over any byte content with a read error at any point | induction over the delivered lines on top of C46's per-line refinement |
| C93 | calls cut at every unlocked access, hash-map calls atomic under the map's mutex, the walk of the leak check cut at every entry | inductive invariant: disjoint claims of owned blocks and of blocks inside calls account for raw blocks, records, table entries and canaries; a measure on positions and strong fairness for the return of every call |
| C94 | every access of every call is one step, other threads run in between | generic theorem on calls bracketed by a mutex (Common/Locked), plus: the pieces run alone are the sequential model's step; liveness over fair infinite executions (Common/LockedLive, MpliteMt/Fair) |
| C95 | every access of every call is one step, other threads run in between, hashmap_size reads at any moment | generic theorem on calls bracketed by a mutex (Common/Locked, LockedMore), plus: the pieces run alone are the sequential model's step; predicates that hold along a program for the size; liveness over fair infinite executions (Common/LockedLive, MpliteMt/Fair) |
| C96 | threads with program counters over the pool of C36; a locked section is one step, the size read, each byte of the memset and each store are steps of their own | invariant: the pool and all blocks (owned or in calls) form a state of a sequential history; swapping lemmas access by access; liveness over fair infinite executions (Common/LockedLive, MpliteMt/Fair) |
| C97 | every block is an object on a heap with an allocator that may refuse or reuse; reading, writing or freeing a block not allocated is undefined behaviour | ownership invariant: heap = heap before + exactly the objects of the document + leaked lists; refinement of the list model of C43 call by call; two-reader relation for parse_str |
| C98 | small steps: load of the other thread's offset, one byte of a memcpy, store of the own offset | inductive invariant with the stream of accepted bytes: offsets are the stream positions modulo size, the unread window is intact, the copy windows are disjoint |
| C99 | the system of C98 with a FIFO store buffer per thread and drain steps | inductive invariant with ghost stream positions of the offsets in memory; every pending byte store lies outside the published window, every pending offset store finds its bytes in place |
| C100 | zones as functions from instants to offsets, gmtime/mktime as contracts over the civil calendar of C49 | arithmetic of the contracts; composition with C49 |
| C101 | heap of blocks, two formatting passes with independent texts | case analysis over both passes and malloc |
| C102 | stream = file bytes + buffered output + position; fseek flushes | list lemmas about the flush, case analysis |
| C103 | the call as a program of single accesses on a shared heap, in the generic lock semantics | linearizability of the framework, induction over the calls; composed with C65 (queue, worker, files); liveness over fair infinite executions (Common/LockedLive, MpliteMt/Fair) |
| C104 | threads as step machines over the cache, one access a step | inductive invariant giving every position of every thread its knowledge of the cache; a decreasing measure |
| C105 | threads as step machines over the variable | inductive invariant (fresh / made); liveness over fair infinite executions (Common/Fair); refinement from the machine with store buffers; the composition with the Portable model by computation |
| C106 | the loop over the memory, once with checked `int` arithmetic and once modulo 2^32 | Horner's rule by induction; a lower bound on the running value for the overflow |
| C107 | the eight lines over Mplite's state; the counters' stores one by one beside the reads | C39's exact counters and a bound on them along histories; inductive invariant for the race |
| C108 | one name per thread, set by the contracts of the two system calls | induction over histories against a definition that reads the history from its end |
| C109 | the facade's macros over the models of slog (C74) and xlog (C57) | induction over programs against a definition of the shown messages that mentions neither logger |
| C65 | file_logger.c: log call, worker callback as a fold over the queue handler's deliveries | invariant on files, composition with C51 |
| C57 | xlog.c whole call at byte level | invariant of configurations, exact text by buffer-prefix lemmas |

## What is modelled (module → source) and what is not
| module | source | not modelled |
|---|---|---|
| Integer | src/data/integer.c | – |
| RingBuf | src/ring/ring_buf.c | NULL-argument branches |
| RingBuffer, Spsc | src/ring/ringbuffer.c | weak memory (see Tso) |
| FixedMsgQueue, MsgQueue, MsgSpsc | src/ring/fixed_msg_queue.c, msg_queue.c | logging |
| AutoCover | src/ring/autocover_buffer.c | the optional lock functions (bracketing only) |
| Hashmap | src/data/hashmap.c | blocking behaviour of the mutex (lock discipline is proved) |
| CList, Array | src/data/list.c, array.c | – |
| Base64, Url | src/data/base64.c, url_encoder_decoder.c | NULL-argument branches |
| Strings | src/mem/strings.c | `strcasecmp`-like platform aliases |
| StringBuilder | src/mem/stringbuilder.c | NULL-argument branches; `%` formatting itself (the expanded text is an input) |
| StrParams | src/mem/str_params.c (over Hashmap) | double/float values, `str_params_dump`; allocation failures inside create_str/to_str (StrParamsOom) |
| Mplite | src/mem/mplite.c (byte level: links and control bytes live in the caller's buffer) | lock callbacks, NULL arguments, `mplite_print_stats` (MpliteStats), foreign pointers passed to free |
| Allocator | src/mem/allocation_tracker.c, src/mem/allocator.c (flat byte memory, bounds-checked; the table is the Hashmap model; C library malloc is an arbitrary oracle) | file/function/line labels of records, concurrent calls, a stray write hitting the tracker's own records |
| IniReader | src/file/ini_reader.c, string input (`INI_ALLOW_*` defaults of the header) | reading from a FILE (see IniFile), `INI_USE_STACK = 0`, INI_STOP_ON_FIRST_ERROR |
| IniParser | src/file/ini_parser.c (lists as Lean lists, cached pointer as an address that can dangle) over IniReader and StringBuilder | numeric getters (IniTyped), parse_file/save (IniFile), allocation failures while parsing (IniHeap) |
| FileUtil | src/file/file_util.c (system calls as arbitrary oracles) | `file_util_access`, NULL arguments (`file_util_get_size_by_*`: FileSize) |
| TimeUtil | src/time/time_util.c: date conversion, time texts, cache; any number of threads, critical sections atomic | Windows clock code and current_ms (Clock), `time_util_zone_offset_seconds_to_utc` (Zone), performance counter; rwlock itself (see C56 for Windows) |
| MsgHandler | src/ring/msg_queue_handler.c: push, worker loop incl. buffer growth and allocation failure, destroy; one pushing thread, worker, destroying thread; `sem_wait` may be interrupted | status callbacks, logging, the 1 ms sleep, failures of create; destroy concurrent with a push (forbidden by the API) |
| FixedSpsc | src/ring/fixed_msg_queue.c push/pop executed concurrently by two threads (single loads/stores/byte copies interleave) | NULL arguments (see FixedMsgQueue); weak memory (see FixedTso) |
| FixedHandler | src/ring/fixed_msg_queue_handler.c: push, worker loop, clear (a load and a store, at any time), destroy | overlapping clear calls; status callbacks; `size_t` token wrap-around (NoWrap hypothesis) |
| Thpool | src/thread/thpool.c: init's thread loop, `thread_do`, `thpool_add_work`, `jobqueue_push`/`_pull` store by store on a heap of cells, `bsem_*`, `thpool_wait`, `thpool_destroy`; any number of workers, adding and waiting threads, spurious wake-ups | pause/resume (signals), thread names, failing `malloc`/`pthread_create`, `int` overflow of the counters, the timing of destroy's polling, weak memory |
| Mcs | src/thread/pthread_win_simple/ptw32_mcs_lock.c: flag_set, flag_wait, acquire, release, try_acquire, one step per shared access, any number of nodes | `ptw32_mcs_node_transfer`, failing `CreateEvent`, weak memory |
| Rwlock | src/thread/pthread_win_simple/pthread_win_simple.c:254-463: pthread_rwlock_* incl. lazy initialisation (failures, TSO store buffers), any number of threads | failing waits, `destroy` while in use, unlock by non-holders |
| Cond | src/thread/pthread_win_simple/pthread_win_simple.c:168-250: pthread_cond_wait, signal, broadcast, one user mutex, any number of threads | counter wrap-around, failing waits |
| ThreadLife | src/thread/pthread_win_simple/pthread_win_simple.c:17-80, 468-487: pthread_create, join, detach, start routine, failing malloc and CreateThread, any number of threads | failing waits, `pthread_self` |
| Xlog | src/log/xlog.c (non-Android): setters, filter, header, function/line, stack and heap path, delivery, hex print | redirection of stdout, initialisation, the lock (one step), `printf` formatting itself (the produced text is an input) |
| FileLogger | src/log/file_logger.c over MsgHandler, TimeUtil, Strings, Integer | lock callbacks, logging of errors, 64-bit counter wrap-around, directory creation (C58) |
| HashFn | src/data/hash_functions.c: all functions, LP64, signed char | 32-bit `long` |
| TimeRfc | src/time/time_rfc1123.c, time_rfc2822.c; strftime for %a %b %d %H %M %S %T %Y %z | gmtime_r (contract), other locales, years before 0 |
| FileIter | src/file/file_iterator.c | changes of the file system during the call, logging, the Windows dirent wrapper |
| WinSem | src/thread/pthread_win_simple/semaphore_win_simple.c: all functions; threads, deadlines, name space with handle counting | failing waits, access rights, NULL arguments |
| WinSem (names) | src/thread/pthread_win_simple/semaphore_win_simple.c: sem_open_internal, sem_init, sem_destroy, arch_rel_time_in_ms | names of 2^31 characters or more |
| Tso | src/ring/ringbuffer.c: RingBuffer_write, RingBuffer_read_internal, availability, under TSO and PSO | weaker memory (load reordering), compiler reordering |
| MsgTso | src/ring/msg_queue.c: push and pop under TSO | NULL arguments |
| FixedTso | src/ring/fixed_msg_queue.c: push and pop under TSO | NULL arguments |
| Slog | src/log/slog.c; macros of inc/log/slog.h | printf's expansion of the user's format; Android; the messages on stderr |
| Portable | src/thread/portable_thread_posix.c except gettid and set_current_name | the primitives themselves; stack_size (ignored by the code); concurrency of calls on the same handle variable |
| IniTyped | src/file/ini_parser.c 98-122, 151-194, 526-607, 640-726 | strtod/strtof (parameters), stdio errors other than open/short read/short write |
| ThpoolPause | src/thread/thpool.c 127, 255-288, 353-362 | fprintf and sleep inside the handler beyond their blocking |
| Dlfcn | src/sys/dlfcn_windows.c 79-563 | dladdr, SetErrorMode, thread safety (disclaimed by the code) |
| XlogMt | src/log/xlog.c 25-293, 418-551 with threads | bytes of the line (C57's model), Android, failing mutex creation; C data races outside the lock are taken as sequentially consistent |
| VersCmp | inc/sys/dirent_windows.h 1076-1144 | alphasort (strcoll is the locale's) |
| Dirent | inc/sys/dirent_windows.h 245-970, 1149-1203 | Visual C++'s own wcstombs_s/mbstowcs_s (invalid-parameter handler), errno set by malloc, the static `ent` buffers shared by readdir's results |
| Dirent | inc/sys/dirent_windows.h 972-1067 | filter/compare with side effects; the cast of the count to int beyond 2^31 entries |
| Dladdr | src/sys/dlfcn_windows.c 220-256, 565-775 (_WIN64) | 32-bit variant; negative e_lfanew; the shared static file name buffer with threads |
| Global | src/lcu.c 6-35, src/time/time_util.c 134-164, src/log/xlog.c 101-102, 118-137 | other calls on handles of the program between the calls; interleavings inside portable_*_init |
| StrDouble | src/mem/str_params.c 226-242, 292-319; strtod and %.10f of the C library by contract | locales with another decimal point, errno |
| Clock | src/time/time_util.c 41-128, 323-372 | the system's clocks, reordering of the stores on weakly ordered processors |
| ThpoolInit | src/thread/thpool.c 125-179, 245-252, 307-321, 365-367, 420-434, 513-516 | failing pthread_mutex_init/cond_init, mutexes never destroyed |
| HandlerLife | src/ring/msg_queue_handler.c 44-141, 167-190; src/ring/fixed_msg_queue_handler.c 39-107, 158-181 | queue contents and semaphore count (MsgHandler, FixedHandler), pushes racing with destroy |
| ObjLife | src/ring/ringbuffer.c 62-139; src/ring/ring_buf.c 30-72, 182-200; src/ring/msg_queue.c 16-36, 120-129; src/ring/fixed_msg_queue.c 12-34, 87-97; src/ring/autocover_buffer.c 28-51, 170-180; src/mem/stringbuilder.c 18-85; src/data/array.c 41-74, 114-130 | contents (other modules), ring sizes above 2^30 (undefined shift, C06) |
| StrParamsOom | src/mem/str_params.c 30-151, 244-262, 321-363 over Hashmap | log output |
| StrParamsOom (text form) | src/mem/str_params.c 321-363 | - |
| IniFile | src/file/ini_reader.c 97-269 (over IniReader for one line) | the C library's fgets (contract only), text-mode translation |
| AllocMt | src/mem/allocator.c 84-101, 170-190; src/mem/allocation_tracker.c 128-213, 241-263 (over Allocator and Hashmap) | weak memory; init/uninit/reset concurrent with calls; strdup/calloc/realloc (malloc plus accesses to owned blocks); failing record allocation |
| AutoCoverMt | src/ring/autocover_buffer.c 19-27, 57-168; src/ring/ringbuffer.c 186-284 | a failing or non-exclusive lock; auto_cover_buf_create/destroy/reset-type calls concurrent with the others |
| HashmapMt | src/data/hashmap.c 56-61, 127-185, 247-390 | hashmap_free concurrent with calls; callbacks that call the map; a failing or non-exclusive lock; intermediate chain shapes nobody without the lock can see |
| MpliteMt | src/mem/mplite.c 121-263 with the lock | foreign pointers, double free, mplite_print_stats; steps inside a locked section |
| IniHeap | src/file/ini_parser.c 83-149, 198-242 (reads), 246-427, 609-637; src/data/list.c list_new/append/remove/free | links of the list nodes (C19); partial writes of blocks; strings of the typed setters (C64) |
| RingBufSpsc | src/ring/ring_buf.c 26-28, 75-180 under two threads | weak memory, clear beside a reader only as a counterexample, NULL handles |
| RingBufTso | src/ring/ring_buf.c 26-28, 75-175 under two threads with store buffers | compiler reordering, load reordering, clear |
| Zone | src/time/time_util.c 166-181, src/log/file_logger.c 117, 218, src/log/xlog.c 206-216 | failing gmtime, mktime in the gap of a zone change |
| Asprintf | src/mem/asprintf.c 1-46 | the formatting itself (C library) |
| FileSize | src/file/file_util.c 101-128 | text mode streams of Windows, directories |
| FileLoggerMt | src/log/file_logger.c 40-81, 122-178 | init/deinit racing with log; the worker (C51, C65) |
| TimeMt | src/time/time_util.c 240-294 over TimeUtil; src/mem/strings.c 35-64 byte by byte | the lock itself (C56), weak memory |
| WinMutex | src/thread/pthread_win_simple/pthread_win_simple.c 90-164, 254-280 over Portable | load reordering, InitializeCriticalSection failing |
| KeyHash | src/data/hashmap.c 203-217 | - |
| MpliteStats | src/mem/mplite.c 281-320, 463-476, 517-518 over Mplite | the totals and the largest request in the racing part |
| ThreadName | src/thread/posix_thread.c 61-79; src/thread/portable_thread_posix.c 38-41, 66-72; src/thread/thpool.c 338-343 | Windows and Apple branches, threads that have ended |
| LogFacade | inc/log/logger_facade.h; inc/log/logger_facade_slog.h; inc/log/logger_facade_xlog.h (level, messages, trace, hexadecimal; redirection over the redirection models of C74 and C79) | LOG_GLOBAL_INIT/CLEANUP, the disabled build |

## Recorded findings (each is a theorem)
* Integer rounding wraps to 0 above 2^31 (C02).
* fixed_msg_queue never reaches its documented capacity (C09); msg_queue pop does not report the size (C12).
* autocover: stale positions alias newer data (C16).
* hashmap foreach goes on after the callback returned false (C20); put/remove return a freed value.
* array: `append_value` reads beyond small values; creation size can overflow (C23).
* base64 refuses 1-byte inputs; url_decode truncates silently but reports `last_src_pos`.
* strreplace with an empty pattern never terminates; strnutf8len reads one byte beyond its limit.
* str_char2hex loses the last digit at the advised capacity and writes out of bounds whenever it
  truncates (C32).
* stringbuilder_appendf with a failing format drops a character or writes out of bounds (C33).
* str_params: a failed table growth leaves freed strings in the map; create_str leaks the key of every
  repeated pair; get_int truncates without an error, get_long saturates without an error (C34-C36).
* mplite_init with `min_alloc` above 2^30 computes `1 << 31` (example in Mplite/Props); mplite_freemem shifts an
  unused `int` to `1 << 31` on every call (not modelled); mplite_realloc refuses sizes that are not powers of two.
* lcu_realloc with the tracker off copies nothing (`realloc_untracked_copies_nothing`); requests within 16 (malloc) or
  2064 (realloc) bytes of SIZE_MAX wrap and overrun (`huge_malloc_overruns`, `huge_realloc_overruns`); lcu_calloc ignores an
  overflowing product (`calloc_overflow_succeeds`); a block allocated while the table is out of memory stays untracked
  and freeing it aborts (`untracked_block_cannot_be_freed`).
* ini_parser: deleting the section created last leaves a dangling cached pointer; every later call naming a section reads
  freed memory (`delete_recent_section`, C44); sections without keys are lost in a dump/parse round trip (C45), a document
  without sections cannot be dumped; the header and blank line of a section are appended without checking for
  out-of-memory.
* ini_reader: section names are cut to 49 characters (`section_names_cut`), lines to 199; names without value after an error are
  not reported (example in IniReader/Props); a continuation line in ini_parser replaces the value.
* file_util: a transfer of 2^31 bytes is reported as 0 (`huge_write_reports_nothing`); append_slash leaves a slash followed by
  spaces alone, doubles mixed separators, overwrites the last character when full, and runs off an unterminated buffer
  (C48); mkdirs reads past its copy for a path of exactly 256 characters (`path_of_256_is_undefined`).
* time_util: seconds are truncated to 32 bits (`year_2038_is_wrong`); local times before 1970 get negative hours
  (`before_1970_hour_negative`); tm_wday/tm_yday/tm_isdst are not assigned; at the epoch second in UTC the zero-initialised
  cache is hit (`epoch_second_hits_empty_cache`).
- msg_queue_handler.c:30 `2 << counter` is an `int` shift: a message larger than 2^30 bytes makes the worker execute
  undefined behaviour (model state `ub`; excluded for queues of at most 2^30 bytes by `no_undefined_shift`).
- msg_queue_handler.c / fixed_msg_queue_handler.c ignore the result of `sem_wait`; an interrupted wait only makes the
  worker try once more (modelled; no theorem is affected).
- fixed_msg_queue_handler.c:153: two overlapping `clear` calls can lower `min_valid_token` again (the later load may be
  stored first); the model therefore lets `clear` calls not overlap.
- thpool.c:395 wakes one thread with `pthread_cond_signal`: if two threads are in `thpool_wait`, one of them can sleep
  forever (`two_waiters_one_hangs`).
- thpool.c:239-252: `thpool_destroy` polls `num_threads_alive` without the lock and frees the pool while the last worker
  may still have to unlock `thcount_lock` inside it (`destroy_frees_a_locked_mutex`, a use after free).
- thpool.c: jobs still queued when `thpool_destroy` is called are dropped without being executed.
- ptw32_mcs_lock.c:222-250: `release` returns without waiting for the successor's write to `nextFlag` when `next` is
  already set, so the successor writes into a node that is no longer in use (`late_write`; the nodes are local variables
  of pthread_win_simple.c); if the node is used again meanwhile, two threads reach a null dereference in `release`
  (`reuse_crashes`).
- pthread_win_simple.c rwlock: writers that keep coming starve readers (`readers_starve`); `pthread_rwlock_init` rejects a
  NULL `*rwlock` with EINVAL; rdlock and wrlock return 0 even when the wait failed (not modelled).
- pthread_win_simple.c:168-180: `pthread_cond_init` does not initialise `mWaiting`, `mWake`, `mGeneration`; on memory from
  `malloc` (thpool's `bsem`) they are garbage.  The model starts them at 0; `equal_counters` extends everything to any start
  with `mWaiting = mWake`, `garbage_waits_for_ever` proves that with `mWake >= mWaiting + threads` no waiter is ever woken, and
  with `mWaiting > mWake` a waiter may spin (`garbage_spins`).
- pthread_win_simple.c:183-213: a thread that starts to wait after a broadcast or signal can take the wake-up that was
  promised to an earlier waiter if a further signal comes (`stolen_broadcast`, `stolen_signal`).
- xlog.c:188 `xlog_auto_level_up` checks nothing; a level of 7 or more makes the next message read beyond the level table
  (`auto_level_up_unchecked`).  xlog.c:481 only reserves 32 bytes for function and line: a name of 512 characters overflows
  the stack buffer (`long_function_name_overflows`).  xlog.c:556 a hexadecimal message of 171 bytes or more overflows its
  stack array (`hex_overflow`, a consequence of C32's finding).  Only five digits of the thread id are shown, none for 0
  (`tid_ambiguous`).  Not modelled: a callback that logs again would deadlock on the mutex.
- file_logger.c:221: the file name has millisecond resolution and the file is opened with "wb": a second file started within
  the same millisecond erases the first (`same_millisecond_overwrites`).  `file_logger_deinit` drops queued messages
  (`deinit_drops`); messages are cut at a NUL (`nul_cuts`); more than 2^31 bytes overflow the cache
  (`huge_message_overflows`); a queue of 2^22 KiB wraps to 0 (`queue_size_wraps`); a NULL from `strreplace` is dereferenced.
- hash_functions.c:59: the string hash overflows `int` for every string of four or more characters (`string_overflows`).
- time_rfc1123.c:20: from the year 10000 on `strftime` fails, its result is ignored and 0 is returned (`rfc1123_year_10000`, `rfc2822_year_10000`).  time_rfc2822.h documents a local zone (`+0800`), the code always writes `+0000`.
- file_iterator.c:74: an entry whose status cannot be read (a dangling link) ends the iteration and 0 is returned, although the header promises a non-zero result on errors (`unreadable_ends`); paths of PATH_MAX or more are cut, and the status of another path is reported (`path_cut`).
- semaphore_win_simple.c:289: `sem_getvalue` takes a token for a moment: a concurrent `sem_trywait` fails with EAGAIN (`getvalue_steals`), and at SEM_VALUE_MAX a concurrent post makes it lose a token (`getvalue_loses`).
- semaphore_win_simple.c:90: `sem_open` without O_CREAT on a missing name returns ENOENT but has created it and leaks the handle (`enoent_creates`); 120: unnamed semaphores are named after their address in the machine-wide name space (`semInit_clash`); 216: a deadline 49.7 days or more ahead times out at once (`deadline_far`).
- ringbuffer.c:221,266: plain stores, no barrier: correct under TSO, but on a machine with store-store reordering (ARM, POWER) the reader can receive bytes never sent (`pso_garbage`), and the message queues deliver torn messages (`MsgTso.pso_torn_message`, `FixedTso.pso_torn_message`).
- slog.c:82: SLOGx_HEX with 85 bytes loses the last digit and with 86 or more overflows the 256-byte stack array (`Slog.hex_85`, `hex_overflow`); slog.c:66-69: slog_back2stdout closes stdout and then passes the closed stream to freopen (`back_undefined`); slog.c:52: after a failed slog_stdout2file stdout is closed and every further message is undefined (`failed_redirect_undefined`).
- portable_thread_posix.c:138: portable_mutex_unlock lacks the `*mutex` test of its siblings and crashes on a destroyed or failed mutex (`Portable.unlock_null`); :89: portable_thread_join frees the wrapper even when pthread_join fails, leaving the caller with a dangling handle (`join_failed_dangles`); initialising a handle in use leaks the old object (`reinit_leaks`).
- ini_parser.c:640-726: integer getters and get_bool overwrite the caller's variable although they report FAILED (`IniTyped.get_integer_clobbers`, `get_bool`); get_int truncates and still reports success (`get_int_truncates`); get_bool accepts any word that begins with no/yes/true/false ("nobody" is false) and calls 4294967296 false; :544: ini_parser_save empties the existing file before it knows whether there is anything to write, and leaks the FILE* then (`save_failed_destroys`, `save_empty_document`); it ignores fwrite's result (`save_ignores_fwrite`); :110: isspace gets negative arguments for UTF-8 paths (`is_file_path_utf8`).
- thpool.c:258-286: threads_on_hold is one flag for all pools, and the handler itself sets it: a thpool_resume that comes before a worker took its signal is lost and the worker sleeps for ever (`ThpoolPause.resume_lost`); resuming or creating any pool ends the pause of all pools (`release_is_global`); a worker may be stopped while holding the queue's mutex, so that thpool_add_work blocks (`pause_holds_mutex`); thpool_destroy of a paused pool hangs (`destroy_paused_hangs`).
- dlfcn_windows.c:421: dlclose removes the module from the private list even if it stays loaded (opened twice, or needed by another library): its symbols become public (`Dlfcn.close_exposes`); dlfcn_windows.c:370-386: if EnumProcessModules fails RTLD_LOCAL is ignored (`no_list_exposes`).
- xlog.c:430 tests the level before the lock: a line can appear after xlog_set_min_level(LOG_LEVEL_OFF) returned (`XlogMt.line_after_off`); xlog.c:540-543 runs the user's callback with the non-recursive mutex held: a callback that logs or configures deadlocks all of xlog (`callback_deadlock`); xlog_global_init/cleanup while another thread is in a call misuse the mutex (`init_during_call`, `cleanup_during_call`, `cleanup_before_lock`); without xlog_global_init a callback may get another configuration's data (`mixed_callback_without_init`); xlog.c:151-158, 174-177: after a successful xlog_stdout2file both another one and xlog_back2stdout use the closed stdout (`Redirect.redirect_defined_iff`).
- dirent_windows.h:1106: a string that ends (or goes on with a character below '0') where the other goes on with 0 is the greater one, so versionsort lists file0 before file, unlike GNU's (`VersCmp.differs_from_gnu`, `agrees_with_gnu`: the only difference); dirent_windows.h:1101, 1112: isdigit of a plain (signed) char is undefined for bytes above 127 (`non_ascii_undefined`).
- `rewinddir` does not clear `invalid` (dirent_windows.h 597-608): after a `seekdir` that found nothing - also `seekdir(d, telldir(d))` at the end of the directory - `readdir` returns NULL for ever although `rewinddir` succeeded (`rewind_after_seek_end`, `seek_tell_end`). Positions are 31-bit hashes of names: `seekdir` goes to the first entry with the same hash (`ab`/`bA`, `seek_collision`). A name that does not fit 260 bytes in a multi-byte locale is cut silently (`long_name_cut`). `readdir(NULL)` and `_wseekdir(NULL)` dereference NULL (`null_undefined`). When another thread changes the current directory between the two calls of GetFullPathNameW, `_wopendir` writes behind its buffer (`cwd_race`).
- `scandir` with a null `compare` (allowed by POSIX implementations; order unspecified) calls the null pointer (`null_compare`). With a null `namelist` the table and its entries are leaked (Result holds but the caller gets no pointer).
- dlfcn_windows.c:688 compares the slot with `>` so that a pointer just behind the import address table is accepted (`Dladdr.slot_behind_table`); 610-628: of several exports at one address only the first index is looked up among the names, so a named alias may be reported without name (`alias_unnamed`); 643: `AllocationProtect` says nothing about the present state, so an address that is only reserved makes dladdr crash (`reserved_undefined`).
- lcu.c:15, 27: the counter is not atomic and the answers of the lock creations are ignored: two first calls at the same time create every lock twice (`Global.Conc.double_creation`), a concurrent second caller returns before the locks exist (`early_return`), concurrent cleanups destroy a mutex twice (`double_destroy`) or leave the counter at 4294967295 so that no later call initialises (`counter_underflow`), an update may be lost (`lost_update`); `lcu_global_init` answers 0 when a lock could not be created (`failure_silent`); LOG_DEINIT destroys the logger's mutex under the others (`deinit_takes_lock`).
- str_params.c:230: the result of snprintf is not compared with the buffer size: doubles from 1e31 (negative: from -1e30) are stored with their last digits cut off and read back as a much smaller number with success (`StrDouble.double_cut`).
- time_util.c:125: `(long)` has 32 bits on Windows, from 19 January 2038 on `tv_sec` is negative and `time_util_current_ms` is near 2^64 (`Clock.year_2038`); time_util.c:87: the pointer is NULL until line 99 if GetSystemTimePreciseAsFileTime is missing, another thread then calls through NULL (`Clock.null_call`); time_util.c:350: a frequency below 1000 Hz makes the divisor zero (`Clock.perf_slow`); time_util.c:371: on POSIX the performance clock is the settable time of day (`Clock.posix_backwards`).
- thpool.c:167: the result of `thread_init` is ignored: if the memory for a thread record or the thread itself is refused, `thpool_init` loops for ever at 174 (`ThpoolInit.init_hangs`); thpool.c:318-319: the result of `pthread_create` is ignored and `pthread_detach` is then called with a thread id never written (`detach_unset`).
- msg_queue_handler.c:178, fixed_msg_queue_handler.c:169: destroy called from the handler's own message callback frees everything under the worker (`HandlerLife.suicide_undefined`); 131/97: the result of `portable_sem_init` is ignored, the handler then polls (`example_no_semaphore`); 51-58: without memory for its buffer the worker ends while create has returned a valid handle (`no_buffer_no_messages`).
- msg_queue.c:122: `msg_queue_destroy` tests the address of the handle but not the handle: destroying twice through the same variable, or after a failed creation, reads through NULL (`ObjLife.mq_destroy_twice`); msg_queue.c:18: sizes 8 to 27 pass the check and are always refused (`mq_life`), likewise RingBuffer_create(2) (`ring_life`) and fixed queues of fewer than 28 bytes in all (`fq_life`); array.c:52: the product of element size and capacity may overflow, giving an array without storage (`arr_overflow`).
- str_params.c:115-132: the copies and the map entry are not checked: a refused value silently unsets the key (`StrParamsOom.refused_value_unsets`), a refused key stores NULL, after which asking for "" crashes (`refused_key_breaks_empty_key`), and a text with a key such as "hLHinm" (hash of NULL) crashes the parser (`refused_key_can_crash_parsing`); a refused entry leaks both copies (`create_str_under_refusals`).
- str_params.c:346-351: when asprintf is refused the text so far is dropped but the walk goes on with the next bucket (hashmap_foreach stops only the inner loop), so str_params_to_str may return an incomplete text that looks complete (`StrParamsOom.to_str_under_refusals`).
- ini_reader.c:136: a read error ends the loop like the end of the file and 0 is returned (`IniFile.read_error_unreported`); a NUL byte hides the rest of its line (`nul_hides_rest`).
- allocation_tracker.c:163-181: a new record is put in the table empty, and is filled in and its canaries are written without the lock; a leak check in another thread meanwhile dereferences NULL-8 (`AllocMt.check_during_malloc_undefined`) or aborts on the missing canary (`check_during_malloc_aborts`).
- autocover_buffer.c:19-27: what the user's acquire function returns is ignored; a lock that can fail (a timed or try lock) gives no exclusion, and `AutoCoverMt.lock_needed` shows what then happens.
- hashmap.c:247-250: hashmap_size reads `size` without the lock; during a hashmap_clear in another thread it returns numbers of keys the map never had (`HashmapMt.size_not_linearizable`).
- C97: when the list node of a new section cannot be allocated, search_target_section frees the section but not its list (ini_parser.c 280-284): one list_t leaks per such call, and ini_parser_destroy cannot free it (leak_example)
- C98: ring_buf_clear called by the reader while ring_buf_write is between its memcpy and its store of offset_write: the reader then receives bytes it consumed before (clear_during_write_breaks)
- C99: on machines that reorder stores (ARM, POWER, SPARC PSO) a ring_buf reader can receive bytes never sent: no barrier between memcpy and the store of offset_write, ring_buf.c 155-172 (pso_garbage)
- C100: time_util_zone_offset_seconds_to_utc answers the old offset for up to |offset| after a change of summer time (offset_wrong_after_change); file_logger.c:117 drops the minutes of the offset, so log file names are wrong in zones like +5:30 (file_date_half_hour); xlog_set_timezone refuses +13 and +14 (zones_refused)
- C101: asprintf.c:28 `len + 1` is int arithmetic: undefined for a text of INT_MAX bytes (int_max_undefined); if a string argument grows between the passes the answer exceeds the block (answer_beyond_block)
- C102: file_util.c:109 narrows st_size to long: sizes modulo 4 GiB on 32-bit Android (by_path_wraps)
- C104: without its lock the time cache gives wrong times: one made at 20:59:59 is returned as 20:00:00 or 21:00:00 (lock_needed); the TIME_UTIL_RD_LOCK macros test the address of the handle, never NULL, and ignore the failing answer, time_util.c 20-22
- C105: portable_rwlock_init clears the object it allocates and pthread_rwlock_init (pthread_win_simple.c 257) refuses a variable that is NULL, so on the simple Windows layer portable_rwlock_init always answers 22 or -2 and locking such a lock answers -1 (portable_rwlock_never_works); pthread_mutex_destroy of a static mutex never locked dereferences (void*)-1 (destroy_of_unused); pthread_mutex_unlock of one with the RECURSIVE / ERRORCHECK initialiser does too, 157 tests only the first (unlock_of_unused)
- C105: pthread_mutex_lock's double-checked locking has no barrier (pthread_win_simple.c 103-104, 128, 146): where stores may become visible out of order (Windows on ARM) a thread can enter a critical section that is not yet initialised (pso_enters_uninitialised)
- C106: hashmap_hash overflows `int` for every key of seven or more bytes (long_overflows) and every six-byte ASCII key (ascii_overflows); the code carries a FIXME and switches off clang's integer sanitizer, but nothing asks for -fwrapv
- C107: mplite.c:288-298 prints the 64-bit totals as unsigned: wrong after 4 GiB (total_wrong); mplite.c:281 takes no lock and can report a maximum below the current value (peak_below_current)
- C108: portable_thread_posix.c:68 drops the answer of pthread_setname_np: a name of 16 or more bytes is lost without a sign (given_too_long), while the prctl build of posix_thread_set_current_name cuts it and reports success (builds_agree)
- C109: a hexadecimal message of 86 to 170 bytes is printed by the xlog build and overflows the stack of the slog build (hex_builds_differ); with a function name of 512 characters the slog build prints and xlog overflows its buffer (func_builds_differ); a text with a NUL is printed whole by slog and ends at the NUL on xlog's console (nul_builds_differ); a second LOG_STD2FILE works with slog and is undefined with xlog (redirect_builds_differ)

## Noticed while reading, outside the model

- inc/log/logger_facade.h:51 keeps logging on when `_LCU_LOGGER_DISABLE` is defined to a value other than 0 and turns it
  off when it is defined to 0: the test is the wrong way round. (Preprocessor; C109 is about the enabled build.)
- src/file/ini_reader.c:123 calls `ini_malloc`, which is declared nowhere: the configuration `INI_USE_STACK=0` does not
  compile. The model is of the default configuration.
- src/thread/ptw32_mcs_lock.c 284-307 (`ptw32_mcs_node_transfer`, not used by the library): a successor that links late
  still writes the old node's flag after the call has returned, as with release (see the findings of the MCS lock). Not
  modelled.
