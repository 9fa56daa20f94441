# Formal model of libmtev in Lean 4: design

## Layout

* `properties.jsonl`: the properties, one per line (`C01`, `C02`, ...).
* `lean/Verif/<Component>.lean`: model of one component (definitions citing `/repo` file and lines) followed by helper lemmas.
* `lean/Verif/<Component>Props.lean`: the specification the property is stated against, the property theorems (name starts with the property id) and, beside each, a concrete `example` that meets its hypotheses.
* `MANIFEST.json`: property -> theorem names -> status.
* `seeded/LOG.jsonl`: mutation log: wrong versions of model definitions and the theorems that no longer hold.

## Method

The C code is transcribed function by function into total Lean functions over
lists, naturals, fixed-width integers and structures.  Four shapes are used:
round trips, invariants over all operation histories (`run : List Op -> State`),
refinement to an abstract object, and decision logic.  Concurrent code is
modelled as a step relation in which each atomic access (or each section under
an exclusive lock) is one step and any thread may go next; the theorems hold for
every interleaving of any number of threads.  Undefined behaviour (null
dereference, out of bounds access, use after free, reading uninitialised memory
where it matters) is a distinct outcome (`Out.ub`, `none`), never a default
value; a failed `mtevAssert` is `Out.abort`.

Where a property is false of the code, the negation is proved on a concrete
witness (`..._violated`), and the strongest true part is kept as `..._partial`.

## Trusted base

* The Lean 4.33.0 kernel.  `decide +kernel` is used for finite facts about bytes and for witnesses; it is checked by the kernel and adds no axiom.
* Axioms: at most `propext`, `Classical.choice` and `Quot.sound`; the last section lists them per theorem.  No axiom is added, there is no `sorry`, `native_decide` or `bv_decide`.
* The hand transcription of C into Lean.  Each definition cites its source lines and states its simplifications.
* Not modelled anywhere: the C compiler, failing memory allocation, the kernel, signal handling, hardware memory ordering weaker than sequential consistency (atomics are sequentially consistent).
* External code by contract: `ck_hs` and the other Concurrency Kit containers (a set searched with the comparison callback), pthread mutexes, condition variables and reader-writer locks, PCRE (`pcre_exec` is a function from subject to result and captures), libc text/number conversion (`strtod`, `printf("%f")`, `inet_pton` as functions; `strtoul`, `strptime`, `isspace`, ... after glibc in the "C" locale), sockets (`read`/`write` take results from an arbitrary list).

## Which code is modelled

Paths are below `/repo/src`.  What a component leaves out is said at the top of its Lean file; the main points are repeated here.

| code | Lean module | left out |
|------|-------------|----------|
| utils/mtev_url.c | Url | logging; `int` truncation of results |
| utils/mtev_b32.c | B32 | `int` truncation |
| utils/mtev_b64.c, aklomp-base64 generic codec | B64 | SIMD and word-at-a-time loops |
| utils/mtev_uuid_parse.c, mtev_uuid_generate.c (text form) | Uuid | generation from /dev/urandom |
| utils/mtev_str.c | Str | `mtev_strnstrn` fast paths of libc |
| utils/mtev_dyn_buffer.c | DynBuffer | yajl callback |
| utils/mtev_sort.c | Sort | lists of 2^30 nodes and more |
| utils/mtev_hyperloglog.c | Hll | floating point estimate |
| utils/mtev_confstr.c | Confstr | |
| utils/mtev_cht.c | Cht | free wrapper; exact rationals for `double` |
| utils/mtev_btrie.c | Btrie | debug output |
| utils/mtev_lru.c, mtev_lfu.c | Lru, Lfu, CacheHeap | ck_hs by contract |
| utils/mtev_skiplist.c | Skiplist | pointers inside a row |
| utils/mtev_frrh.c | Frrh | address reuse |
| utils/mtev_flow_regulator.c | Flow | |
| utils/mtev_plock.h, mtev_sem.c | Plock, Sem | back-off delays |
| utils/mtev_intern.c | Log2, Arena, ArenaConc, Intern | pools without extents, backing files, statistics |
| utils/mtev_hash.c | Hash | lock modes, lock-free readers |
| utils/mtev_logic.c (evaluation), mtev-logic.leg (grammar) | Logic, LogicParse | |
| utils/mtev_hooks.h | Hooks | names and prototypes |
| utils/mtev_log.c:206-461 (memory log) | LogRing | other log types, filters, outlets |
| eventer/eventer_jobq.c | Jobq, JobDeps | thread start and stop, timeouts, cancellation of running jobs |
| eventer/eventer_epoll_impl.c, acquire_master_fd/release_master_fd, cross-thread triggers | EvFd, EvFdInv, EvFdOwn, EvFdKern, EvFdIntr | freeing of events, failures of epoll_ctl other than "is in the set" and "is not in the set", timers and recurrent events |
| eventer/eventer_impl.c:1158-1296 (timed events) | Timers | |
| mtev_http1.c, mtev_http_private.h, mtev_http.c (head, request body, response body, query string) | HttpHead, HttpIn, HttpOut, Query | compression, websockets upgrade, pipelining of whole connections |
| mtev_rest.c (access rules, registration, dispatch) | RestAcl, RestRoute | hooks, coroutines, reload during use |
| json-lib (tokener, object serialiser) | Json, JsonText | printbuf sizes, `double` formatting |
| json-lib/mtev_linkhash.c, mtev_arraylist.c (objects and arrays) | JsonStore | allocation failure, reference counts |
| mtev_net_heartbeat.c (sending and receiving of datagrams) | Heartbeat | the cipher (any with the laws of CBC and a keyed check), target lists, timers |
| mtev_cluster.c (messages, payloads, oldest node, timeouts, ownership, configuration numbers) | Cluster, ClusterOwn | reading and writing the XML, REST handlers, threads (the callbacks run in one event loop), several clusters sharing one boot time |
| slz-lib/slz.c, slz-lib/tables.h, utils/mtev_compress.c (gzip and deflate), mtev_compress_bound as used by mtev_http_private.h | Slz, SlzRoomProps (specification: Inflate) | other processors' variants, zlib format (RFC 1950), LZ4, decompression (zlib's), zlib's bounds (parameters) |
| modules/http_hmac_cookie.c (issuing and checking cookies, login form, host and domain) | Cookie | HMAC and SHA (a parameter), base64 (modelled separately), the password check (an external hook), reading the configuration |
| mtev_http1.c 722-735, 1874-2049 (status, headers and options of a response, its head) | RespHead | the hook on starting a response, the hash table of headers (a finite map with any order of iteration; see Hash), upgrades to websockets |
| mtev_reverse_socket.cpp 161-319, 423-688, 747-985, 1242-1312 (frames, channels, both handlers, opening a channel, shutdown) | Rev, RevInv, RevNet | counters, log messages (except one whose arguments are read before a check), races between threads, X-Bind proxies, TLS |
| mtev_reverse_socket.cpp 1117-1240, 1432-1478 (accepting a reverse connection, table of identifiers, retry delays) | RevAcc | X-Bind, timers, the REST and console listings |
| mtev_memory.c 60-661 (sections, safe_free, maintenance, return queues, the collector, thread ends), eventer_aco_opset.c 64-74 | Smr, SmrInv, SmrStep, SmrRun, SmrCore, SmrLive, SmrEff, SmrHist, SmrProg | ck_epoch (by contract: synchronize waits for the sections open at the call, poll dispatches only entries older than every open section), ck_fifo as a list, weak memory order, counters and statistics, the allocators |
| mtev_rest.c 1287-1385, 1619-1636 (serving files) | FileServe | the file system is a function that does not change during a request; realpath(3) after glibc |
| mtev_tokenizer.c | Token | count overflow |
| utils/mtev_log.c 483-568, 1485-1492, 1537-2015, 2225-2427, 2597-2695 (streams, outlets, filters, derived bits, routing of a line) | LogGraph | flatbuffer encoding (a line is its attributes), hooks, JSON outputs, names of streams (numbers) |
| utils/mtev_log.c 2076-2113, 2318-2386 (prefixes, splitting, writing of text records) | LogFmt | strftime (any date text), JSON outputs |
| utils/mtev_log.c 570-725, 762-857, 2925-2964 (asynchronous writer, change of mode, reopen) | LogAsync | ck_fifo_mpsc by contract with one reader (a dequeue is a read of the head followed by an update; a second reader in between is undefined), the file's locks and rotation, sequential consistency |
| eventer/eventer_SSL_fd_opset.c (verification callbacks, names, set-up), mtev_listener.c:251-262, mtev_reverse_socket.cpp:1502-1512 | Tls | certificates are their dates, names and subject entries; OpenSSL's own verdict on each is an input; handshakes succeed |
| eventer/eventer_SSL_fd_opset.c:600-1135,1273-1288 (settings, cache of contexts, layers) | TlsCtx | one thread; the digest is any function to 32 bytes; loading files succeeds or fails as a whole; OpenSSL 1.1 or later |
| eventer/eventer_SSL_fd_opset.c:1137-1254, eventer/eventer_SSL_fd_opset.h:111-125 | Alpn | the offer is well formed (OpenSSL checks it); nghttp2's function as in its source |
| eventer/OETS_asn1_helper.c | Asn1Time | `mktime` (local times) is not modelled |
| utils/mtev_watchdog.c (mtev_watchdog_ratelimit, update_retries, emancipate, mtev_watchdog_start_child) | WatchMon | process ids are never reused, fork succeeds, whole seconds, no glider, the verdict about the hearts is given |
| utils/mtev_watchdog.c (it_ticks, last_tick_time, mtev_heartcheck, create, enable, disable, override_timeout) | WatchHeart | the counter does not wrap; time in microseconds |
| utils/mtev_watchdog.c:211-334,877-897 (managed applications) | WatchMan | process ids are never reused, exact delays, no pipes and privileges |
| mtev_main.c:343-445, utils/mtev_watchdog.c:231-253,297 | WatchConf | the configuration is what the conf functions answer; no log streams |
| utils/mtev_watchdog.c:473-500,1135-1195, mtev_defines.h:142-180 | WatchName | time limits are whole microseconds |
| mtev_conf.c:1810-1959,2125-2182 | ConfTree | the document is a list of elements in document order with their parents; paths are a child name, a descendant name or attribute; no prefixes beyond one namespace |
| mtev_conf.c:3723-3902 | ConfEnv | the regular expression matcher and the environment are arbitrary functions |
| mtev_conf.c:2327-2409,2474-2501 | ConfNum | 64-bit `long`; C locale; no floating point |
| mtev_conf.c:139-195, utils/mtev_thread.c:96-102 | ConfLock | the pthread lock is exclusive and fair only in that a free lock can be taken; sequentially consistent |
| mtev_xml.c:93-151, mtev_conf.c:1195-1276 | XmlSave | each system call may fail or be the last one; rename is atomic; the XML parser is an arbitrary test |
| mtev_xml.c:42-91, mtev_conf.c:2510-2532,2721-2750 | XmlBuf | memory blocks with bounds; the XML library calls back with arbitrary pieces |
| mtev_conf.c:541-590,2645-2719 | ConfFile | files by name; texts given; calls fail by an arbitrary oracle |
| mtev_conf.c:884-998,1439-1508 | ConfIncl | one `<include>` with any number of matching files, pointer by pointer; no snippets |
| mtev_conf.c:1000-1172 | ConfStore | the tree of sections with texts given; saves fail by an arbitrary oracle; whole seconds |
| modules/lua_lpack.c:44-252 | LuaPack | a little-endian machine; no floating point; numbers given as integers that fit |
| modules/lua_bit.c | LuaBit | arguments are integers; Lua numbers are doubles |
| utils/mtev_lockfile.c:40-116 | Lockfile | POSIX record locks of whole files, by process; open and close do not fail |
| utils/mtev_mkdir.c:39-61 | Mkdir | a tree of files and directories without links and `..`; mkdir refused by an arbitrary oracle |
| mtev_console_state.c:60-69,1111-1183,1203-1216, mtev_console_complete.c:51-95,140-182 | ConCmd | the skip list is a sorted list (C20); one level of states; the terminal is not modelled |
| mtev_console_state.c:910-1072 | ConApply | texts are lists of bytes; printing and the address functions of the C library are given |
| utils/tzinfo.c | Tzinfo | a file is its bytes; `strftime` itself is not modelled |
| utils/mtev_security.c:62-213 | Security | identities as Linux keeps them; Solaris privileges and capabilities are not modelled |
| mtev_console_telnet.c:1863-2158 | Telnet | output functions of the terminal are events; LINEMODE is not defined by the project |
| mtev_console_telnet.c:2217-2808, mtev_console_telnet.h:164-274 | TelOpt | each option on its own; what an option then does to the terminal is not modelled |
| utils/mtev_zipkin_encode.h:112-368, utils/mtev_zipkin.c:105-117,256-290 | Zipkin | `size_t` does not overflow; binary data has no negative length |
| utils/mtev_zipkin.c:147-209,323-330,463-476,541-600, mtev_http.c:470-516 | ZipkinSpan | probabilities are multiples of 2^-48; `strtoull` as the standard has it |
| utils/mtev_zipkin.c:208-290,478-762 | ZipkinCtx | atomic counters: threads as interleavings of calls; `mtev_zipkin_aco_swap_span` is left out; memory does not run out |
| eventer/eventer_aco_opset.c:64-74,147-351 | AcoGate | one event loop thread; a job completes on it once (C30); the jobs, memory sections and stack switching are left out |
| eventer/eventer_aco_opset.c:41-110,352-435, eventer_impl.c:1565-1600,1661-1672, eventer_epoll_impl.c:385-462 (what a callback returns) | AcoIo | one coroutine on the thread of its loop; calls from other threads, memory sections and stack switching are left out |
| mtev_console.c:97-167,215-285,390-418, mtev_console_telnet.c:1697-1700 | ConOut | the buffer with its real and remembered sizes; calls atomic (one lock); consoles over websockets are left out |
| mtev_console_complete.c:51-136,222-323 | ConTab | lines of any number of words (C86) and trees of commands (C120, C121); commands with their own completion and the editing of the terminal are left out |
| utils/mtev_compress.c:30-35,393-426,475-499,524-575 | CurlHelp | the libraries are parameters with stated laws; loops that need not end carry a number of turns |
| mtev_listener.c (but the event loop, ALPN and coroutine wrappers) | Listen | times as seconds and microseconds; inet_pton, stat and the other calls of the system are parameters; eventer_accept one result at a time |
| mtev_http1.c:849-937,955-1015,1652-1823 | HttpConn | parsers of heads and bodies are parameters; one list of input bytes; the response written as one piece; upgrades, websockets, Expect and coroutines are left out |
| mtev_websocket_client.c:44-54,184-355,424-535,606-691 | WsClient | frames (the wslay library), TLS and connecting are left out; one call at a time |
| utils/mtev_huge_hash.c:30-63,83-146,182-480 | HugeHash | LMDB is what its documentation promises (ordered, atomic writes, snapshots, one read transaction per thread); calls are atomic but for waiting to resize; exact arithmetic for the four fifths |
| mtev_dso.c:77-79,137-389 | Dso | the dynamic linker is a function of paths; callbacks answer as part of the image; where the settings come from is left out |
| utils/mtev_time.c:102-122,205-216,298-445,706-807 | Clock | exact fractions instead of doubles; one CPU at a time; calibrating the time of day and choosing the instruction are left out |
| modules/http_observer.c:45-389; mtev_http.c:573-603 | Observer | hooks are atomic; numbers of bytes and extraction of configured headers left out; the order of rows is that of lists |
| modules/consul.c:74-89,149-331,437-530,579-635,764-780,870-874,1100-1151 | Consul | HTTP answers are given as outcomes; JSON, base64 and URLs left out; the registry is one service; the witness's calls of one answer are one list |
| modules/mtev_amqp.c:99-127,218-255,426-470,474-580; modules/mtev_fq.c:58-82,142-166,273-327 | Amqp | addresses are never reused; queues under their locks are lists; an envelope's content is one number; the client libraries' answers are given |
| utils/mtev_curl.c:49-53,127-139,183-284,343-348; eventer/eventer_epoll_impl.c:135-184,224-282,380-441; eventer/eventer_impl.c:1179-1193 | CurlEv | one event loop thread; identities are never reused; curl's calls are given; times are whole milliseconds |
| utils/mtev_rand.c:11-79 | Rand | OpenSSL's answers are given, with an error for negative lengths; jrand48 as in POSIX; little-endian |
| utils/mtev_maybe_alloc.h:46-137; json-lib/mtev_json_printbuf.c:32-66,103-135 | SmallBuf | blocks are never reused; maybe buffers do not run out of memory; text is formatted already |
| json-lib/mtev_json_util.c:56-126 | JsonFile | up to the parser and from the printed text; memory does not run out; builds without MC_MAINTAINER_MODE |
| modules/zipkin_jaeger.c:56-98,138-200 | Jaeger | queue operations under their lock are one step; waiting and curl are left out |
| mtev_capabilities_listener.c:86-93,194-230,398-434; json-lib/mtev_json_object.c:287-292 | Capa | names of services are left out; JSON objects are lists of keys and values |
| mtev_events_rest.c:42-123 | EvRest | the text of an IPv6 address is given; names are left out |

Not modelled at all: the rest of mtev_conf.c (the journal, section handles, console commands, floating point) and the XML library, mtev_console* other than the tokenizer, looking up, completing and applying commands, the telnet stream and options, the output buffer, the rest of mtev_reverse_socket.cpp, mtev_http2.c other than the query string, mtev_stats.c, the file-descriptor side of the eventers (reading and writing over TLS included), starting coroutines, Lua other than pack and bit, and the other loadable modules, the rest of mtev_watchdog.c (glider set-up, signal handlers, the events that beat), the allocators of mtev_memory.c, LZ4 and zlib behind mtev_compress.c, noitedit.

## Properties: what is modelled and what is proved

The status is that of MANIFEST.json.  "partial" means that the full statement is false of the code or proved under a stated restriction; the note says which.

### C01 URL encoding round trips (proved)

Code: src/utils/mtev_url.c: mtev_url_encode, mtev_url_decode, isallowed.  Theorems in `UrlProps.lean`: `C01_url_roundtrip`, `C01_url_encode_alphabet`, `C01_url_decode_exact`, `C01_url_encode_injective`.

Full statement proved for every byte string.

### C02 URL encoder stays inside its buffer (partial)

Code: src/utils/mtev_url.c: mtev_url_encode, mtev_url_max_encode_len.  Theorems in `UrlProps.lean`: `C02_url_encode_overflow_violated`, `C02_url_encode_bounds_partial`, `C02_url_encode_len_suffices`, `C02_url_decode_bounds`, `C02_url_encode_in_place`.

False as stated: with dest_len = 3n and no unreserved input byte the terminating NUL is stored at dest[dest_len] (witness _violated; _partial characterises exactly when this happens and bounds the excess by one byte). Refusal, the documented length function, the decoder bound and the in-place mode are proved.

### C03 HTML escaping is safe and sized by its own length function (partial)

Code: src/utils/mtev_url.c: mtev_html_encode, mtev_html_encode_len.  Theorems in `UrlProps.lean`: `C03_html_encode_escapes`, `C03_html_encode_no_markup`, `C03_html_encode_bounds`, `C03_html_encode_len_violated`, `C03_html_encode_len_partial`.

Escaping, termination and bounds proved in full. The sizing claim is false (mtev_html_encode_len(1)=6 is refused for one '&'); proved with one more byte.

### C04 Base32 round trips (proved)

Code: src/utils/mtev_b32.c: mtev_b32_encode, mtev_b32_decode, mtev_b32_encode_len.  Theorems in `B32Props.lean`: `C04_b32_encode_rfc4648`, `C04_b32_roundtrip`, `C04_b32_decode_case_insensitive`.

Round trip through RFC 4648 text for every input, and insensitivity to ignored characters and letter case.

### C05 Base32 decoding never writes past its destination (partial)

Code: src/utils/mtev_b32.c: mtev_b32_decode.  Theorems in `B32Props.lean`: `C05_b32_decode_overflow_violated`, `C05_b32_decode_bounds_partial`.

False as stated: hostile text overruns the destination (witness: 4 bytes into dest_len 0). Proved: stores at most 5n/8 bytes, hence no overrun when dest_len covers that or the text length is a multiple of 8.

### C06 Base64 round trips (proved)

Code: src/utils/mtev_b64.c: mtev_b64_encode, mtev_b64_decode.  Theorems in `B64Props.lean`: `C06_b64_encode_rfc4648`, `C06_b64_encode_refuses`, `C06_b64_roundtrip`, `C06_b64_decode_lenient`, `C06_b64_uninitialised_read`.

Encoder equals RFC 4648 for any iovec split; decoder inverts it with a destination of exactly the source length, and for any white space placement and URL-safe letters. C06_b64_uninitialised_read records that a one-letter final group reads an uninitialised byte.

### C07 Base64 decoding never writes past its destination (proved)

Code: src/utils/mtev_b64.c: mtev_b64_decode.  Theorems in `B64Props.lean`: `C07_b64_decode_bounds`.

Proved for every text and every destination size, both paths.

### C08 UUID text form is faithful (proved)

Code: src/utils/mtev_uuid_parse.c: mtev_uuid_parse, mtev_uuid_unparse_lower, mtev_uuid_unparse_upper.  Theorems in `UuidProps.lean`: `C08_uuid_parse_iff`, `C08_uuid_parse_in_bounds`, `C08_uuid_roundtrip`, `C08_uuid_case_insensitive`.

Parser accepts exactly the 36-character form (any hex case), never reads beyond the first NUL; print then parse is the identity.

### C09 strnstrn finds the first occurrence (partial)

Code: src/utils/mtev_str.c: strnstrn, kmp_precompute.  Theorems in `StrProps.lean`: `C09_strnstrn_first_partial`, `C09_strnstrn_extremes`, `C09_strnstrn_violated`, `C09_strnstrn_256`.

Proved for needles of 1..255 bytes followed by a readable byte. False otherwise: a 256 byte needle overflows the table by one slot for every needle, and the byte after the needle is read (_violated).

### C10 Growable string buffers keep their content (partial)

Code: src/utils/mtev_str.c: mtev_prepend_str, mtev_append_str_buff, mtev_str_buff_to_string.  Theorems in `StrProps.lean`: `C10_prepend_partial`, `C10_append_partial`.

Proved for every history with sizes below 2^27 (int lengths in the code); above that not claimed.

### C11 Dynamic buffers refine byte strings (partial)

Code: src/utils/mtev_dyn_buffer.c; src/utils/mtev_dyn_buffer.h.  Theorems in `DynBufferProps.lean`: `C11_dyn_buffer_contents_partial`, `C11_dyn_buffer_maybe`, `C11_dyn_buffer_terminated`, `C11_dyn_buffer_detach`, `C11_dyn_buffer_printf_violated`, `C11_dyn_buffer_violation_reachable`.

Contents, bounds and termination for every history below 512 MiB in total; with 2^31 free bytes add_printf aborts (_violated, with reachability). detach proved without bound.

### C12 Linked list merge sort sorts (proved)

Code: src/utils/mtev_sort.c: mtev_merge_sort.  Theorems in `SortProps.lean`: `C12_merge_sort_sorts`, `C12_merge_sort_perm`.

For every comparator that is a total preorder, the result is sorted and a permutation. The linked-list representation is the list of nodes in next-pointer order.

### C13 HyperLogLog state depends only on the set of elements (proved)

Code: src/utils/mtev_hyperloglog.c: mtev_hyperloglog_add, mtev_hyperloglog_size.  Theorems in `HllProps.lean`: `C13_hll_alloc`, `C13_hll_registers`, `C13_hll_set_semantics`, `C13_hll_union`, `C13_hll_sums_antitone`.

Register semantics, set semantics (order/duplicates irrelevant), union as merge and monotonicity of the raw sums. Floating point estimation is not modelled.

### C14 Duration text parses to its arithmetic value (partial)

Code: src/utils/mtev_confstr.c: mtev_confstr_parse_duration.  Theorems in `ConfstrProps.lean`: `C14_duration_iff`, `C14_duration_exact_partial`, `C14_duration_overflow_violated`, `C14_duration_units`.

Accepts exactly the token grammar; value is the sum of clamped numbers mod 2^64. The exactness claim is false on overflow (_violated) and proved when the sum fits 64 bits (_partial).

### C15 Time text parses to the right instant (partial)

Code: src/utils/mtev_confstr.c: is_valid_date, mtev_timegm, mtev_confstr_parse_time_gm.  Theorems in `ConfstrProps.lean`: `C15_time_gm_partial`, `C15_time_gm_only_stamps`, `C15_time_gm_violated`.

False for 29 February of years divisible by 100 (witness _violated: 2000-02-29 rejected, 2300-02-29 accepted): proved for all other stamps; only stamps are accepted. strptime is modelled after glibc.

### C16 Consistent hash ring is sorted and lookup follows the ring (partial)

Code: src/utils/mtev_cht.c: mtev_cht_set_nodes, mtev_cht_vlookup_n.  Theorems in `ChtProps.lean`: `C16_lookup_distinct`, `C16_ring_order_partial`, `C16_empty`, `C16_unsorted_violated`, `C16_duplicate_violated`, `C16_bits31_violated`, `C16_trim`.

Distinctness and count hold for every hash function and all collisions. Order and position hold when hashed points do not pile up at the bottom of the ring (in particular without collisions). Refuted: three points colliding at the lowest position leave an unsorted ring; asking for more nodes than exist returns a duplicate; 31 hash bits is undefined behaviour. The hash function is a parameter; qsort is any sort.

### C17 IP prefix tree answers the longest matching prefix (partial)

Code: src/utils/mtev_btrie.c: add_route, find_bpm_route, del_route.  Theorems in `BtrieProps.lean`: `C17_longest_match_partial`, `C17_delete_covering_violated`, `C17_stack_overflow_violated`.

Holds for histories that never delete a prefix covering the whole table and, for IPv6, with no /128 route or at most 64 insertions. Violations: deleting the covering route dereferences NULL; 129 nested routes overflow pstack[128].

### C18 LRU cache is bounded and evicts the least recently used (partial)

Code: src/utils/mtev_lru.c: mtev_lru_put, mtev_lru_get, mtev_lru_release, mtev_lru_remove.  Theorems in `LruProps.lean`: `C18_never_over_limit`, `C18_get_returns_last_put`, `C18_freed_exactly_once`, `C18_exact_partial`, `C18_replace_crash_violated`, `C18_premature_eviction_violated`.

Full statement false of the code: a put of a present key does not decrement lru_cache_size, so M+1 puts of one key dereference NULL (C18_replace_crash_violated, all M) and other histories evict early (C18_premature_eviction_violated). Proved for all histories: limit, last-put, freed exactly once. Proved for all histories without replacing puts: exact equality with the ideal LRU (C18_exact_partial).

### C19 LFU cache is bounded and evicts a least frequently used entry (proved)

Code: src/utils/mtev_lfu.c: mtev_lfu_put, mtev_lfu_get, touch, expire_least_lfu_cache_entry_no_lock.  Theorems in `LfuProps.lean`: `C19_exact`, `C19_never_over_limit`, `C19_get_returns_last_put`, `C19_freed_exactly_once`, `C19_disabled`.

Bounded caches (max > 0) exactly refine the ideal LFU for all histories; max = 0 refuses everything. Unbounded mode is C51. ck_hs is trusted; frequency_list_head is the containing bucket.

### C20 Skip list is an ordered set (proved)

Code: src/utils/mtev_skiplist.c: mtev_skiplist_insert, mtev_skiplist_find, mtev_skiplist_remove, mtev_skiplist_pop.  Theorems in `SkiplistProps.lean`: `C20_ordered_set`, `C20_find`.

Order, find, insert and remove proved for all heights and all sequences of calls.

### C21 Fixed-size replacement hash only returns what was stored under the key (proved)

Code: src/utils/mtev_frrh.c: mtev_frrh_get, mtev_frrh_set.  Theorems in `FrrhProps.lean`: `C21_get_linearizable`, `C21_set_linearizable`, `C21_get_only_stored`, `C21_hits_le_accesses`, `C21_within_table`, `C21_set_get_alone`.

Concurrent model: n threads, one step per atomic access, arbitrary hash and dice. Lookups and successful sets are linearizable; table bound, counters and single-threaded exactness included. Tables up to 2^32 slots for the linearizability of get (the slot index is truncated to 32 bits).

### C22 Flow regulator hands out each toggle to exactly one client (proved)

Code: src/utils/mtev_flow_regulator.c.  Theorems in `FlowProps.lean`: `C22_counter_exact`, `C22_accept_iff_reserved`, `C22_no_abort`, `C22_toggles_alternate`, `C22_single_owner`, `C22_no_lost_wakeup`, `C22_raise_alone`, `C22_lower_alone`.

atomic-step model with any number of clients; sequentially consistent atomics

### C23 Progressive locks exclude correctly (proved)

Code: src/utils/mtev_plock.h: pl_take_r, pl_take_s, pl_take_w, pl_try_*, pl_stow, pl_wtos, pl_stor, pl_wtor, pl_drop_*.  Theorems in `PlockProps.lean`: `C23_exclusion`, `C23_word_returns_to_zero`, `C23_uncontended`, `C23_downgrade`.

both word sizes; capacity 5n < 2^(bits/2) as documented in the header; the A operations except try_rtoa may be mixed in

### C24 Emulated semaphores conserve permits (proved)

Code: src/utils/mtev_sem.c.  Theorems in `SemProps.lean`: `C24_permits_conserved`, `C24_value_exact`, `C24_wait_returns_with_permit`, `C24_take_uses_one`, `C24_no_lost_wakeup`.

pthread primitives by specification; value wraps modulo 2^32 after 2^32 outstanding permits

### C25 Interning gives one handle per content (partial)

Code: src/utils/mtev_intern.c: mtev_intern_internal_ex, mtev_intern_release_pool, mtev_intern_copy.  Theorems in `InternProps.lean`: `C25_handle_stands_for_bytes`, `C25_equal_iff`, `C25_in_use_not_reclaimed`, `C25_count`, `C25_safe`, `C25_nothing_leaks`, `C25_removed_once`, `C25_length_partial`, `C25_string_key`, `C25_blob_key`, `C25_unterminated_violated`, `C25_string_or_blob_violated`, `C25_long_key_violated`.

Proved for every interleaving of interns, copies, releases and lookups in pools with extents. Partial: the stored length is the asked one only when a pool holds only strings or only blobs (C25_string_or_blob_violated); keys over 8 MiB match shorter entries (C25_long_key_violated); interning a prefix of a longer string leaves it unterminated (C25_unterminated_violated). Pools without extents are not modelled.

### C26 Intern arena never overlaps live strings (partial)

Code: src/utils/mtev_intern.c: borrow_free_node, replace_free_node, mtev_intern_pool_compact.  Theorems in `ArenaConcProps.lean`, `ArenaProps.lean`: `C26_concurrent_no_overlap`, `C26_concurrent_every_byte`, `C26_concurrent_safe`, `C26_concurrent_bases`, `C26_records_partial`, `C26_record_twice_violated`, `C26_every_byte_accounted`, `C26_no_overlap`, `C26_compaction_keeps`, `C26_safe_partial`, `C26_alloc_new_piece`, `C26_compaction_maximal`, `C26_four_gib_violated`, `C26_odd_extent_violated`.

Proved for sequential histories and for every interleaving of the atomic operations (ArenaConc). Partial: at most 4 GiB of extents and extent sizes that are multiples of four (C26_four_gib_violated, C26_odd_extent_violated); the list of unused records hands out a record twice when two threads pop at once (C26_record_twice_violated).

### C27 Fast log2 helpers are exact (proved)

Code: src/utils/mtev_intern.c: fast_log2_rd, fast_log2_ru.  Theorems in `Log2Props.lean`: `C27_round_down`, `C27_round_up`, `C27_edges`.

All 32-bit values, by induction on the smearing steps plus the 32 table entries; C27_edges states what happens outside the range.

### C28 Hash table is a map (partial)

Code: src/utils/mtev_hash.c.  Theorems in `HashProps.lean`: `C28_map`, `C28_objects`, `C28_merge_partial`, `C28_merge_violated`.

ck_hs is an external library and is taken by its contract; the key objects, the comparison callback, and all wrapper logic are modelled at byte level. Calls are atomic. mtev_hash_merge_as_dict is proved for NUL-free terminated keys and refuted for keys with embedded NULs (reads past the copy).

### C29 Logic expressions evaluate as boolean algebra over predicates (partial)

Code: src/utils/mtev_logic.c: mtev_logic_exec, exec_predicate.  Theorems in `LogicProps.lean`: `C29_formula`, `C29_truth`, `C29_missing`, `C29_string_order`, `C29_string_compare`, `C29_int_compare`, `C29_number_ops_agree`, `C29_has_predicate`, `C29_only_mentioned`, `C29_ne_violated`, `C29_regex_number_violated`, `C29_long_value_violated`, `C29_bad_pattern_violated`, `C29_huge_strings_violated`, `C29_exponent_violated`.

Formula, missing-variable, string/integer/double comparison and locality theorems are unconditional apart from sizes and NaN. Violated: != between a non-number and a number; regex op with a numeric constant aborts; 128-byte values parse uninitialised memory; bad patterns give null nodes; lengths compared in an int; exponent constants.

### C30 Job queue neither loses nor duplicates jobs (partial)

Code: src/eventer/eventer_jobq.c: eventer_jobq_enqueue_internal, eventer_jobq_dequeue_nolock.  Theorems in `JobqProps.lean`: `C30_exactly_once_partial`, `C30_order_partial`, `C30_fifo_partial`, `C30_dequeue_returns_partial`, `C30_no_lost_wakeup_partial`, `C30_nothing_left_behind_partial`, `C30_no_freed_subqueue_partial`, `C30_no_starvation_partial`, `C30_mode_change_loses_jobs_violated`.

All interleavings of producers and consumers at the granularity of lock sections and atomic operations, any number of threads, jobs and subqueues. Conservation, order per subqueue against the relation Serves, dequeue returns a job when one waits, no lost wake-up, nothing left at rest, bounded passing over of a subqueue that uses less than its share of the consumers. Partial: a switch from LIFO to FIFO while jobs wait loses them (C30_mode_change_loses_jobs_violated); fewer than 2^32-1 jobs running. Thread creation and termination, cancellation and shutdown are not modelled.

### C31 Job queue backlog limit is never exceeded (proved)

Code: src/eventer/eventer_jobq.c: eventer_jobq_try_enqueue.  Theorems in `JobqProps.lean`: `C31_backlog_exact`, `C31_accepted_within_limit`, `C31_backlog_limit`, `C31_refused_not_queued`, `C31_refused_only_when_full`, `C31_plain_enqueue_is_unlimited`.

All interleavings. The limit is constant during a run. Plain eventer_jobq_enqueue does not look at the limit (C31_plain_enqueue_is_unlimited), the property is about eventer_jobq_try_enqueue.

### C32 A job completes only after the asynchronous jobs it spawned (proved)

Code: src/eventer/eventer_jobq.c: eventer_jobq_queue_completion, eventer_jobq_finished_job.  Theorems in `JobDepsProps.lean`: `C32_only_when_all_finished`, `C32_at_most_once`, `C32_memory_safe`, `C32_all_delivered`, `C32_completion_order_remark`.

All dependency trees, all interleavings of the decrements and of the recursion into the spawning job. Timeouts and cancellation of a running job (which frees the job its dependents point to) are not modelled.

### C33 Chunked request bodies decode independently of packetisation (partial)

Code: src/mtev_http1.c: mtev_http1_session_req_consume_read, mtev_http1_session_req_consume.  Theorems in `HttpInProps.lean`: `C33_chunked_body_partial`, `C33_truncated_never_done_partial`, `C33_chunked_progress_partial`, `C33_bad_size_line`, `C33_missing_line_end`, `C33_any_stream_safe_partial`, `C33_trailers_violated`, `C33_extensions_violated`, `C33_empty_size_line_violated`, `C33_size_overflow_violated`, `C33_size_skipped_violated`, `C33_long_size_line_violated`, `C33_buffered_bytes_withheld_violated`.

Proved for all chunked bodies with size texts of at most 18 digits and chunks below 2 GiB, without extensions and trailers: prefix, completeness, progress, truncation, refusal of bad size lines and missing line ends, and safety for arbitrary streams below 4 GiB. Violated: trailers desynchronise the connection, extensions are refused, an empty size line ends the body, sizes wrap at 2^32 (ffffffff is skipped), a 20-digit size line is or is not understood depending on its place in the buffer, and buffered bytes are withheld until the next chunk arrives.

### C34 Chunked responses decode to what was appended (partial)

Code: src/mtev_http_private.h: mtev_http_process_output_bchain; src/mtev_http1.c: mtev_http1_response_flush.  Theorems in `HttpOutProps.lean`: `C34_chunked_response_partial`, `C34_chunked_in_progress_partial`, `C34_verbatim_response_partial`, `C34_completes_partial`, `C34_append_accepted_partial`, `C34_round_trip_partial`, `C34_content_length_cut_violated`, `C34_two_gib_violated`.

HttpOut.lean models mtev_http_response_append / append_bchain / flush, the chunk encoder of mtev_http_process_output_bchain with its header back-fill in a bounds-checked block, the choice of framing and _http_perform_write with arbitrary partial writes, would-block and failures. Proved for all call sequences and all write schedules: prefix property, completeness, exact chunk syntax and payload, verbatim transfer when not chunked, completion, refusals, and composition with the C33 decoder. Limited to buffers below 2 GiB; larger ones make the encoder loop (C34_two_gib_violated). A content-length response that passes the automatic flush limit is cut (C34_content_length_cut_violated). Not modelled: compression, header formatting (leader is an arbitrary byte string), the race between the write lock and the output lock.

### C35 Header lines spanning receive buffers parse the same (partial)

Code: src/mtev_http1.c: _fixup_bchain, mtev_http_request_finalize_headers.  Theorems in `HttpHeadProps.lean`: `C35_split_independent_partial`, `C35_request_parsed_partial`, `C35_malformed_refused_partial`, `C35_pipelined_partial`, `C35_split_header_violated`, `C35_split_last_header_violated`, `C35_split_request_line_violated`, `C35_split_end_violated`, `C35_false_end_violated`, `C35_nul_hides_headers_violated`.

HttpHead.lean models the receive buffers, the search for the end of the head (with the cross-buffer comparison as written), _fixup_bchain at the level of buffer memory, header extraction and the reading loop. Proved for every head of any bytes, every split over reads and any following bytes: one outcome, leftovers kept, and for well-formed heads the exact method, target, protocol and header values; malformed heads are refused. Holds while the head fits the first buffer (24528 bytes) or is completely in the left-over of the previous request; outside that the property is false: C35_split_header_violated (wrong header values), C35_split_last_header_violated, C35_split_request_line_violated (read outside the buffer), C35_split_end_violated, C35_false_end_violated, C35_nul_hides_headers_violated.

### C36 Query string decoding is exact and in place (proved)

Code: src/mtev_http_private.h: inplace_urldecode.  Theorems in `QueryProps.lean`: `C36_decoding_unique`, `C36_in_place`, `C36_never_grows`, `C36_inverts_encoding`, `C36_nul_truncates`.

Memory-level in-place proof, uniqueness, inverse of form encoding, and the truncation by an escaped NUL.

### C37 REST ACLs decide by first match and deny by default (partial)

Code: src/mtev_rest.c: mtev_http_rest_client_cert_auth, mtev_http_rest_load_rules.  Theorems in `RestAclProps.lean`: `C37_first_match_partial`, `C37_allowed_needs_rule`, `C37_acl_type_violated`, `C37_skipto_violated`, `C37_skipto_earlier_violated`, `C37_bad_pattern_violated`, `C37_long_pattern_violated`, `C37_many_groups_violated`, `C37_bad_network_violated`, `C37_other_family_violated`.

First match proved for configurations the code understands, and for every configuration that an allowed request has an allowing rule whose readable attributes hold. False cases each proved: type of an acl ignored, skipto undefined behaviour or ignored, uncompilable or over-long expressions and bad networks dropped or cut (fail open), ten groups never match, IPv4 networks match IPv6 clients with the same leading bits. pcre and inet_pton are parameters; reload races not modelled.

### C38 Hook chains run newest first and stop on abort (partial)

Code: src/utils/mtev_hooks.h: MTEV_HOOK_IMPL.  Theorems in `HooksProps.lean`: `C38_invoke_partial`, `C38_registered_stays_partial`, `C38_defined_partial`, `C38_lost_registration_violated`, `C38_exists`.

Full claim holds if the two plain reads of the list head are one load or registrations do not overlap (_partial); C38_lost_registration_violated is the lost hook when they do.

### C39 JSON strings round trip (proved)

Code: src/json-lib/mtev_json_object.c: mtev_json_escape_str; src/json-lib/mtev_json_tokener.c: mtev_json_tokener_parse_ex.  Theorems in `JsonTextProps.lean`: `C39_string_roundtrip`.

Proved for every NUL free byte string as array element, member value and member key (a bare string is refused by the tokener, see C64).

### C40 JSON parsing is independent of input fragmentation (partial)

Code: src/json-lib/mtev_json_tokener.c: mtev_json_tokener_parse_ex.  Theorems in `JsonProps.lean`: `C40_pieces_partial`, `C40_first_answer_partial`, `C40_no_undefined`, `C40_blank_first_violated`, `C40_empty_piece_violated`, `C40_trailing_comment_violated`, `C40_nul_violated`.

Pieces give the same error and tree as the whole text when the first piece is not blank, no later piece is empty and there is no NUL; the caller that stops at the first answer agrees except for a bad comment after the tree. Each excluded case has a concrete counterexample (_violated). No call sequence reaches undefined behaviour in the modelled machine (C40_no_undefined); print buffer growth and allocation failure are not modelled.

### C41 Timers fire once, not early and in order (partial)

Code: src/eventer/eventer_impl.c: eventer_add_timed, eventer_remove_timed, eventer_update_timed_internal, eventer_dispatch_timed.  Theorems in `TimersProps.lean`: `C41_safe`, `C41_not_early`, `C41_exactly_once`, `C41_pending_once`, `C41_in_order`, `C41_dispatch`, `C41_all_due`, `C41_sleep`, `C41_remove`, `C41_stale_clock_violated`, `C41_update_race_violated`.

Proved for all interleavings of other threads with the dispatch loop under the caller contract (Allowed): never early, exactly once, in order per round, everything due is dispatched, sleep bounded from the last clock reading. False in two ways, each with a witness: the sleep is measured from a clock reading taken before the last callback; rescheduling an event from another thread while its callback runs aborts or leaves a freed event listed.

### C42 strlcpy and strlcat honour their contract (partial)

Code: src/utils/mtev_str.c: strlcpy, strlcat.  Theorems in `StrProps.lean`: `C42_strlcpy_partial`, `C42_strlcpy_violated`, `C42_strlcat_partial`, `C42_strlcat_violated`.

strlcpy proved for size>0 (size 0 stores a byte: _violated); strlcat for size<2^31 (int truncation above: _violated).

### C43 In-memory log ring returns intact recent lines in order (partial)

Code: src/utils/mtev_log.c: membuf_logio_writev, mtev_log_memory_lines.  Theorems in `LogRingProps.lean`: `C43_write_safe`, `C43_lines_since_partial`, `C43_small_lines`, `C43_memory_lines_violated`, `C43_stuck_violated`, `C43_reader_overrun_violated`, `C43_garbage_violated`, `C43_no_slots_violated`, `C43_line_numbers_violated`.

Proved for all histories without refused writes and, unconditionally, when lines are at most a quarter of the segment; writing is always memory safe. Violated after a refused write (reader overrun, garbage, stuck ring), for the count-based reader (one line short), for line numbers beyond 2^31, for zero slots.

### C44 Generated UUIDs are well-formed version 4 (proved)

Code: src/utils/mtev_uuid_generate.c: mtev_uuid_generate.  Theorems in `UuidProps.lean`: `C44_uuid_generate_v4`.

Proved for all 16-byte inputs.

### C45 Merge sort is stable (partial)

Code: src/utils/mtev_sort.c: mtev_merge_sort.  Theorems in `SortProps.lean`: `C45_merge_sort_reverses_ties_partial`, `C45_merge_sort_stable_violated`.

False: equal elements come out exactly reversed (C45_merge_sort_reverses_ties_partial holds for every list and comparator).

### C46 Boolean configuration strings (proved)

Code: src/utils/mtev_confstr.c: mtev_confstr_parse_boolean.  Theorems in `ConfstrProps.lean`: `C46_boolean_iff`.

Proved for all strings.

### C47 mtev_strndup copies the bounded prefix (proved)

Code: src/utils/mtev_str.c: mtev_strndup.  Theorems in `StrProps.lean`: `C47_strndup`.

Proved.

### C48 String buffers hand out C strings (partial)

Code: src/utils/mtev_str.c: mtev_str_buff_to_string.  Theorems in `StrProps.lean`: `C48_to_string_terminated_partial`, `C48_to_string_violated`.

False when the pieces fill the buffer exactly (_violated); proved otherwise.

### C49 Atomic (A) access of progressive locks excludes R, S and W (partial)

Code: src/utils/mtev_plock.h: pl_try_a, pl_take_a, pl_drop_a, pl_try_rtoa.  Theorems in `PlockProps.lean`: `C49_atomic_partial`, `C49_rtoa_violated`.

false of pl_try_rtoa: its failure path re-adds R without checking for a writer that was admitted in between; proved without that operation

### C50 Heavy progressive locks exclude and do not deadlock (proved)

Code: src/utils/mtev_plock.h: mtev_plock_heavy_take_r, _take_s, _take_w, _try_rtos, _stor, _stow, _wtos, _drop_*.  Theorems in `SemProps.lean`: `C50_heavy_exclusion`, `C50_heavy_progress`.

pthread primitives by specification

### C51 Unbounded caches are hash tables (partial)

Code: src/utils/mtev_lru.c:mtev_lru_put; src/utils/mtev_lfu.c:mtev_lfu_put; src/utils/mtev_lru.h.  Theorems in `CacheProps.lean`: `C51_unbounded_lru_partial`, `C51_unbounded_replace_violated`.

False of the code for replacing puts (both caches, any key and values). Proved for the LRU on all histories without them.

### C52 Caches return the memory they take (partial)

Code: src/utils/mtev_lru.c:mtev_lru_invalidate; src/utils/mtev_lfu.c:touch_lfu_cache_no_lock.  Theorems in `CacheProps.lean`: `C52_values_returned_partial`, `C52_leak_violated`.

False of the code: touch in the LFU drops the emptied bucket when the next bucket exists; an unbounded LRU forgets entries on invalidate. Proved: all values of bounded caches are freed exactly once.

### C53 Replaced entries of the replacement hash are released exactly once and not while in use (partial)

Code: src/utils/mtev_frrh.c: mtev_frrh_get, mtev_frrh_set.  Theorems in `FrrhProps.lean`: `C53_freed_once`, `C53_deferred_safe`, `C53_immediate_free_violated`.

Frees proved for all interleavings; safe under deferred reclamation; C53_immediate_free_violated is the use after free with the default free().

### C54 Replacement-hash entries hold key and data without overlap (partial)

Code: src/utils/mtev_frrh.h: MTEV_FRRH_DATA; src/utils/mtev_frrh.c: MTEV_FRRH_BASE_SIZE, mtev_frrh_set.  Theorems in `FrrhProps.lean`: `C54_layout`, `C54_unaligned_violated`.

Proved for 8-aligned allocations; C54_unaligned_violated shows an allocator with smaller alignment makes the data overrun the entry.

### C55 Query parameters are what the client sent (proved)

Code: src/mtev_http1.c: mtev_http1_process_querystring; src/mtev_http2.c: mtev_http2_process_querystring.  Theorems in `QueryProps.lean`: `C55_query_roundtrip`, `C55_empty_pieces_ignored`, `C55_no_query`, `C55_keys_nodup`.

Path, raw query, first value per key, unique keys.

### C56 IP prefix tree deletion removes exactly the named route (partial)

Code: src/utils/mtev_btrie.c: del_route.  Theorems in `BtrieProps.lean`: `C56_delete_partial`, `C56_phantom_delete_violated`.

Violated: deleting a prefix that only exists as an internal branch node returns 1.

### C57 Skip list neighbour lookups report the adjacent elements (proved)

Code: src/utils/mtev_skiplist.c: mtev_skiplist_find_neighbors, mtev_skiplisti_find_compare.  Theorems in `SkiplistProps.lean`: `C57_neighbors`.

Proved for every history of operations, every sequence of random heights and every lawful comparator, through the list's own comparator and each index.

### C58 Adding an index to a skip list indexes all its elements (partial)

Code: src/utils/mtev_skiplist.c: mtev_skiplist_add_index.  Theorems in `SkiplistProps.lean`: `C58_add_index_partial`, `C58_second_index_violated`, `C58_lost_elements_violated`.

Violated on non-empty lists when another index sorts before the new one (NULL dereference, or elements missing).

### C59 Reported ownership of a node is the share of keys it gets (partial)

Code: src/utils/mtev_cht.c: mtev_cht_calculate_ring, mtev_cht_vlookup_n.  Theorems in `ChtProps.lean`: `C59_share_partial`.

Exact rational arithmetic instead of double; same no-pile-up hypothesis as C16.

### C60 Bodies of known length are delivered exactly (proved)

Code: src/mtev_http1.c:mtev_http1_session_req_consume; src/mtev_http1.c:mtev_http1_session_req_consume_read.  Theorems in `HttpInProps.lean`: `C60_fixed_length_body`, `C60_fixed_length_progress`.

Uncompressed bodies; content length non-negative. A zero-length request for bytes is excluded (it returns 0 at once).

### C61 Request body framing follows the headers (partial)

Code: src/mtev_http1.c: mtev_http1_request_finalize_headers.  Theorems in `HttpHeadProps.lean`: `C61_body_framing_partial`, `C61_chunked_spelling_violated`, `C61_bad_length_violated`.

Proved for well-formed heads in the scope of C35; spelling variants of chunked and malformed lengths are accepted with the wrong framing (C61_chunked_spelling_violated, C61_bad_length_violated).

### C62 A request that fits in an extent is answered (partial)

Code: src/utils/mtev_intern.c: mtev_intern_pool_find, mtev_intern_pool_new, borrow_free_node, compact_freelist_with_lock.  Theorems in `ArenaProps.lean`: `C62_alloc_answered_partial`, `C62_alloc_never_returns_violated`.

Proved for extents whose size is a power of two; for other sizes a request larger than the largest power of two in the extent maps extents forever (C62_alloc_never_returns_violated).

### C63 REST requests reach the first endpoint registered for the longest base, and only if authorized (partial)

Code: src/mtev_rest.c: mtev_http_rest_new_rule_auth_closure, mtev_http_find_matching_route_rule, mtev_http_get_handler, mtev_rest_request_dispatcher, mtev_rest_websocket_dispatcher.  Theorems in `RestRouteProps.lean`: `C63_dispatch_partial`, `C63_expected_unique`, `C63_requests_independent_partial`, `C63_stale_handler_violated`, `C63_options_partial`, `C63_websocket_partial`, `C63_websocket_auth_violated`, `C63_websocket_memo_violated`, `C63_many_groups_violated`.

Proved for plain requests with expressions of at most nine groups. False: expressions with ten or more groups never match; a handler that ends its response after returning also gets the next request of the connection unrouted and unauthorized; websocket endpoints registered with an authorizer are served without asking it; a refused first websocket message leaves the handler remembered, so later messages are served.

### C64 JSON texts are accepted with their meaning (partial)

Code: src/json-lib/mtev_json_tokener.c:mtev_json_tokener_parse_ex.  Theorems in `JsonTextProps.lean`: `C64_accepts_partial`, `C64_formfeed_violated`, `C64_upper_hex_violated`, `C64_upper_exponent_violated`, `C64_surrogates_violated`, `C64_scalar_violated`, `C64_big_integer_violated`, `C64_depth_violated`, `C64_nul_violated`, `C64_lax_violated`.

Acceptance with the right meaning is proved for all array and object texts with lower case hex escapes, no \f, no \u0000, 64 bit integers, lower case exponents and at most 31 inner levels. Each excluded form has a counterexample: form feed, upper case hex, upper case exponent, surrogate pairs, bare scalars, big integers, depth, NUL; and texts that are not JSON are accepted (C64_lax_violated). Double conversion (sscanf) is a parameter.

### C65 Printing a JSON tree and parsing the text gives the tree back (partial)

Code: src/json-lib/mtev_json_object.c:mtev_json_object_to_json_string; src/json-lib/mtev_json_tokener.c:mtev_json_tokener_parse_ex.  Theorems in `JsonTextProps.lean`: `C65_print_parse_partial`.

Proved for all trees with NUL free strings and keys, integers in 64 bit range, distinct keys, at most 31 inner levels; doubles only when their printed form reads back (the %lf text and sscanf are parameters). Deeper trees are printed but refused (C64_depth_violated).

### C66 Logic expressions are read as written (partial)

Code: src/utils/mtev_logic.c:mtev_logic_parse; src/utils/mtev-logic.leg; src/utils/mtev-logic-leg.c:yyparse.  Theorems in `LogicParseProps.lean`: `C66_parse_partial`, `C66_meaning_partial`, `C66_space_before_comma_violated`, `C66_no_tree_violated`, `C66_trailing_violated`, `C66_exponent_violated`, `C66_nul_violated`, `C66_pattern_violated`.

Acceptance and meaning are proved for all expressions, depths and spellings except white space between a comparison that is a second or later argument and the comma after it (refused: C66_space_before_comma_violated). The refusal half is false: names, unfinished expressions and the empty text give a tree without root whose execution dereferences NULL; text after an expression is ignored when it was looked at; of two expressions the last counts; an exponent without point makes the integer before it; an escaped NUL ends a string; a bad pattern gives a NULL node.

### C67 Callbacks of a descriptor exclude each other (partial)

Code: src/eventer/eventer_epoll_impl.c: eventer_epoll_impl_trigger, eventer_epoll_impl_add, eventer_epoll_impl_remove, eventer_epoll_impl_remove_fd, eventer_epoll_impl_loop; src/eventer/eventer_impl_private.h: acquire_master_fd, release_master_fd; src/eventer/eventer_impl.c: eventer_cross_thread_trigger, eventer_cross_thread_process.  Theorems in `EvFdProps.lean`: `C67_callbacks_exclude`, `C67_no_self_deadlock`, `C67_idle_unlocked`, `C67_deadlock_violated`.

Exclusion, absence of self-deadlock and the release of all locks are proved for every program and schedule. The last half sentence is false: two callbacks in two threads that each remove the other's descriptor wait for each other for ever (C67_deadlock_violated).

### C68 Events of descriptors stay with their owner, and the kernel is asked for what is registered (partial)

Code: src/eventer/eventer_epoll_impl.c: eventer_epoll_impl_add, eventer_epoll_impl_remove, eventer_epoll_impl_remove_fd, eventer_epoll_impl_update, eventer_epoll_impl_trigger, eventer_epoll_impl_loop; src/eventer/eventer_impl.c: eventer_cross_thread_trigger, eventer_cross_thread_process.  Theorems in `EvFdOwnProps.lean`: `C68_started_by_owner`, `C68_runs_in_owner`, `C68_interest`, `C68_interest_in_callback`, `C68_masks_agree`, `C68_no_abort_partial`, `C68_removed_once`, `C68_stale_report_violated`, `C68_removed_by_other_violated`, `C68_replaced_violated`.

Owner, registration, interest and single hand-back are proved. The process can be aborted: an entry left in the array of epoll_wait for a descriptor number that was removed by an earlier callback and registered again by another thread is fatal (C68_stale_report_violated); C68_no_abort_partial shows this and the removal of an event with mask 0 are the only ways. C68_removed_by_other_violated and C68_replaced_violated show that two of the rules are needed: after eventer_remove_fd returned to a thread that does not own the event its callback may still start, and a callback that put another event in its place and returns a mask changes the other event's interest.

### C69 JSON objects are insertion ordered maps and JSON arrays are lists (partial)

Code: src/json-lib/mtev_json_linkhash.c: jl_lh_table_insert, jl_lh_table_lookup_entry, jl_lh_table_delete_entry, jl_lh_table_resize, jl_lh_char_hash; src/json-lib/mtev_json_object.c: mtev_json_object_object_add, mtev_json_object_object_get, mtev_json_object_object_del; src/json-lib/mtev_json_arraylist.c: jl_array_list_put_idx, jl_array_list_get_idx, jl_array_list_expand_internal.  Theorems in `JsonStoreProps.lean`: `C69_object_partial`, `C69_returns_partial`, `C69_present_returns`, `C69_members`, `C69_lookup_never_ends_violated`, `C69_array`, `C69_negative_index_violated`.

Contents proved for every hash function and history; every call returns when at most four members are deleted over the life of the object, and always for names that are present. False in general: freed slots are never turned back into empty ones and the load check counts live members only, so after five deletions a lookup of an absent name can run for ever (C69_lookup_never_ends_violated: 16 adds and 5 deletions of one-letter names). Array indices below zero are not rejected (C69_negative_index_violated).

### C70 Heartbeat messages arrive whole and nothing else does (partial)

Code: src/mtev_net_heartbeat.c: mtev_net_heartbeat_handler, mtev_net_heartbeat_serialize_and_send.  Theorems in `HeartbeatProps.lean`: `C70_sends`, `C70_fits`, `C70_composes`, `C70_round_trip`, `C70_delivers_partial`, `C70_stays_in_buffers`, `C70_stuck_violated`, `C70_stale_violated`, `C70_indeterminate_violated`.

Round trip, order and absence of buffer overruns proved for an arbitrary cipher with the laws of AES-CBC; the overrun theorem covers every hostile input. The rest needs sane datagrams: a datagram announcing fewer than 16 bytes is refused by recvmsg (EINVAL) and never consumed, so the event loop spins for ever (C70_stuck_violated); a datagram decrypting to fewer than 16 bytes makes the handler look at stale or unwritten bytes (C70_stale_violated, C70_indeterminate_violated).

### C71 Payloads attached to cluster heartbeats arrive at the other nodes (partial)

Code: src/mtev_cluster.c: mtev_cluster_set_heartbeat_payload, mtev_cluster_unset_heartbeat_payload, mtev_cluster_get_heartbeat_payload, mtev_cluster_info_compose, mtev_cluster_info_process.  Theorems in `ClusterProps.lean`: `C71_attach`, `C71_message_partial`, `C71_where`, `C71_payload_partial`, `C71_wrong_bytes_violated`, `C71_absent_violated`, `C71_invented_violated`, `C71_count_violated`.

The message round trip is proved for fewer than 256 payloads (the count has eight bits: C71_count_violated). The lookup is proved right for payloads as long as the first one; otherwise mtev_cluster_get_heartbeat_payload adds the length of the next table entry instead of the present one and returns other bytes (C71_wrong_bytes_violated), and for an absent key it leaves the table: it reads outside the message or takes payload bytes for an entry (C71_absent_violated, C71_invented_violated).

### C72 The oldest visible node of a cluster is known and agreed on (partial)

Code: src/mtev_cluster.c: mtev_cluster_on_node_changed, mtev_cluster_find_oldest_node, mtev_cluster_check_timeout, mtev_cluster_info_process, mtev_cluster_get_oldest_node, mtev_cluster_am_i_oldest_visible_node; src/mtev_defines.h: compare_timeval, sub_timeval_ms.  Theorems in `ClusterViewProps.lean`: `C72_oldest_is_oldest_partial`, `C72_oldest_known_partial`, `C72_one_oldest`, `C72_silence`, `C72_milliseconds`, `C72_learns`, `C72_told`, `C72_unknown`, `C72_dead_oldest_violated`, `C72_clash_violated`.

Proved for runs in which no other node announces the boot time of this one and contact is not lost to all nodes at once. Otherwise: after all nodes timed out (for instance when the process was stopped) the last node of the list is kept as oldest although dead, and heartbeats of other nodes never replace it because no boot time is earlier than 0 (C72_dead_oldest_violated); on equal boot times the oldest node is not recomputed (C72_clash_violated). Death, hooks and learning are proved without these conditions.

### C73 Every key of a cluster has the asked number of owners, known to all nodes (partial)

Code: src/mtev_cluster.c: mtev_cluster_do_i_own, mtev_cluster_filter_owners, mtev_cluster_update_internal, mtev_cluster_compile; src/utils/mtev_cht.c: mtev_cht_vlookup_n.  Theorems in `ClusterOwnProps.lean`: `C73_owners_partial`, `C73_cap_violated`, `C73_first_owner_partial`, `C73_newest`, `C73_agree`.

Proved for up to 256 owners; the lookup silently limits the number to 256 (C73_cap_violated). qsort is an arbitrary correct sort used by all nodes; identities in a configuration are assumed different.

### C74 Compressed data decompresses to the data (partial)

Code: src/slz-lib/slz.c: slz_rfc1951_encode, copy_lit, copy_lit_huff, memmatch, slz_rfc1951_finish, slz_rfc1952_encode, slz_rfc1952_finish, slz_crc32_by4; src/slz-lib/tables.h: fixed_huff, len_fh, fh_dist_table, crc32_fast; src/utils/mtev_compress.c: mtev_compress_gzip, mtev_compress_deflate, mtev_stream_compress, mtev_stream_compress_flush.  Theorems in `SlzProps.lean`: `C74_oneshot_partial`, `C74_stream_partial`, `C74_flush_once`, `C74_nothing_violated`, `C74_large_violated`.

Proved for every division into pieces of at most 65535 bytes, both formats, against a decompressor written from the RFCs (Inflate.lean). False above 65535 bytes in one call: copy_lit (slz.c:314-335) does not advance its pointer, so the second stored block repeats the beginning of the run (C74_large_violated holds for every input of 65539 to 131070 bytes without a repeated four-byte word and with 52 bytes above 143). False for a stream to which nothing was given: the flush fails (C74_nothing_violated). x86_64 variant only. Not claimed: under Content-Encoding: deflate HTTP expects the zlib format (RFC 1950), the code sends raw deflate.

### C75 The compressors stay within their buffers (partial)

Code: src/utils/mtev_compress.c: mtev_compress_bound, mtev_compress_gzip, mtev_compress_deflate, mtev_stream_compress_gzip, mtev_stream_compress_flush_gzip; src/slz-lib/slz.c: slz_rfc1951_encode; src/mtev_http_private.h: mtev_http_process_output_bchain, raw_finalize_encoding.  Theorems in `SlzRoomProps.lean`: `C75_growth`, `C75_growth_oneshot`, `C75_oneshot_partial`, `C75_oneshot_violated`, `C75_call`, `C75_flush`, `C75_http_gzip`, `C75_http_deflate_violated`.

False: 51 bytes above 143 overflow the buffer of mtev_compress_gzip, a 279-byte input that of mtev_compress_deflate, and one stream call of 334 bytes the buffer the HTTP server takes from mtev_compress_bound for deflate (zlib's compressBound assumes stored blocks). Proved: the exact worst-case growth (nine bits per byte plus a constant; eight bits per byte plus two bits for every byte above 143) for every history and size; that the gzip buffer of the HTTP server is large enough given deflateBound(NULL, n) >= n + n/8; that the allocated buffers suffice for data with at most six bytes above 143.

### C76 Login cookies cannot be forged and name their user (partial)

Code: src/modules/http_hmac_cookie.c: hmac_hash, check_cookie, encode_cookie, add_part, add_signature, http_hmac_login, http_hmac_cookie_auth.  Theorems in `CookieProps.lean`: `C76_check_exact`, `C76_roundtrip_partial`, `C76_issue_failed`, `C76_stamp`, `C76_unforgeable`, `C76_no_cookie`, `C76_long_user_violated`, `C76_domain`, `C76_domain_none`, `C76_login_form`, `C76_login_blank_violated`, `C76_redirect`.

The hash is a parameter. Proved: the exact acceptance condition, round trip of issued cookies for names of up to 255 bytes, unforgeability relative to the hash, the domain attribute, and the form fields without '+'. Violated: the length of a name is kept in one byte, so a user whose name is 256 bytes longer is taken for another; '+' in a posted form is not a blank and cuts the field.

### C77 A response head reads back as it was set (partial)

Code: src/mtev_http1.c: mtev_http1_response_status_set, mtev_http1_response_header_set, mtev_http1_response_option_set, _http_construct_leader; src/modules/http_hmac_cookie.c: http_hmac_login.  Theorems in `RespHeadProps.lean`: `C77_head_partial`, `C77_injection_violated`, `C77_refused_encoding_violated`, `C77_long_reason_violated`.

Proved for texts without line breaks and reasons up to 32000 bytes. Violated: line breaks in a value are sent as they are, and the login page takes such a value from the client; a reason of 32690 bytes or more leads to a write beyond the buffer; an encoding the client refuses with q=0 is used.

### C78 Channels over a reverse connection carry each byte stream intact (partial)

Code: src/mtev_reverse_socket.cpp: mtev_reverse_socket_handler, mtev_reverse_socket_channel_handler, mtev_reverse_socket_connect, mtev_reverse_socket_shutdown, append_out, pop_out, append_in, command_out.  Theorems in `RevProps.lean`: `C78_end_to_end_partial`, `C78_complete`, `C78_reuse_violated`, `C78_hostile_peer`, `C78_debug_violated`, `C78_reconnect_partial`, `C78_reconnect_violated`.

Proved for two ends and all histories: no undefined behaviour, each endpoint is given a prefix of what the other sent while a channel number is used once (C78_end_to_end_partial), all of it when nothing is in flight (C78_complete); a hostile peer cannot cause undefined behaviour or more than 65530 buffered bytes with debug logging off (C78_hostile_peer); a client that lost its connection at rest starts afresh (C78_reconnect_partial). False of the code: data of a closed channel reach the next user of its number (C78_reuse_violated); the debug message prints channels[512..] before the check (C78_debug_violated); after a lost connection the client reuses the structure with a freed buffer, a dangling queue tail and an unchecked header (C78_reconnect_violated). Handlers are atomic; races of mtev_reverse_socket_connect (it holds only a read lock) are not modelled.

### C79 Reverse connections are found under identifiers they are entitled to (partial)

Code: src/mtev_reverse_socket.cpp: mtev_reverse_socket_acceptor, mtev_reverse_socket_allowed, mtev_reverse_socket_shutdown, mtev_reverse_socket_connect.  Theorems in `RevAccProps.lean`: `C79_request`, `C79_too_long`, `C79_granted`, `C79_cn_partial`, `C79_cn_violated`, `C79_registered_partial`, `C79_evict_violated`, `C79_hang_violated`, `C79_ends_partial`.

Proved: the request is cut exactly at the first blank line for every arrival of bytes (C79_request), and the 4096 byte limit (C79_too_long); whoever is found under an identifier was granted it (C79_granted), with the certificate of that name if no certificate name contains # (C79_cn_partial); what is up stays registered while no refused request names it (C79_registered_partial). False of the code: the # is cut off after the comparison (C79_cn_violated); a refused request deletes the entry of the identifier it asked for (C79_evict_violated); end of file during the request is an endless loop (C79_hang_violated; C79_ends_partial otherwise). X-Bind proxies are not modelled.

### C80 Clients retry with bounded exponential delays (partial)

Code: src/mtev_reverse_socket.cpp: mtev_connection_schedule_reattempt.  Theorems in `RevAccProps.lean`: `C80_bounds`, `C80_doubling`, `C80_intervals_partial`, `C80_reset_violated`, `C80_limits_violated`.

Proved: bounds (C80_bounds) and exact doubling (C80_doubling) when the initial interval does not exceed the maximum. False of the code: nothing resets the delay after a success (C80_reset_violated), and an initial interval above the maximum, a negative or a zero maximum escape the limits (C80_limits_violated).

### C81 Memory handed to safe free stays valid for its readers (partial)

Code: src/utils/mtev_memory.c: mtev_memory_begin, mtev_memory_end, mtev_memory_safe_free, mtev_memory_maintenance_ex, mtev_memory_gc, mtev_memory_fini_thread; src/eventer/eventer_aco_opset.c: eventer_aco_resume, eventer_aco_yield.  Theorems in `SmrProps.lean`: `C81_readers_partial`.

Proved for all histories (C81_readers_partial), for every address reuse by malloc, if the first use of the library on a thread is not inside a coroutine (otherwise see C82). ck_epoch is modelled by its contract (synchronize returns after all sections open at the call have ended; poll dispatches only entries older than all open sections); steps are sequentially consistent.

### C82 Safe memory reclamation itself is memory safe (partial)

Code: src/utils/mtev_memory.c: mtev_memory_queue_asynch, mtev_memory_gc, mtev_memory_gc_return, terminate_gc_return, mtev_gc_sync_complete, mtev_memory_init_epoch.  Theorems in `SmrProps.lean`: `C82_defined_partial`, `C82_address_reuse_violated`, `C82_first_use_in_coroutine_violated`.

Proved (C82_defined_partial): no undefined behaviour and no assertion other than the double free report, if no list address is reused and the first use on a thread is not inside a coroutine. False of the code otherwise: the collector compares the last list by address, so a reused address makes it free the queue before its owner is done (C82_address_reuse_violated); mtev_memory_init_epoch inside a coroutine leaves the main stack without a section (C82_first_use_in_coroutine_violated).

### C83 Cleanup runs exactly once (partial)

Code: src/utils/mtev_memory.c: mtev_memory_safe_free, mtev_memory_real_free, mtev_memory_fini_thread, mtev_memory_gc.  Theorems in `SmrProps.lean`: `C83_once`, `C83_double_free`, `C83_kept_partial`, `C83_open_section_violated`, `C83_handshake_violated`.

Proved for all histories: at most once and only if asked (C83_once), double frees abort (C83_double_free), nothing is forgotten while no thread has ended (C83_kept_partial). False of the code: a thread that ends inside a section opened once forgets its blocks for good (C83_open_section_violated: begin_end > 1 should be >= 1); if the collector handles the last list between its being queued and counted, the queue is never drained (C83_handshake_violated).

### C84 Maintenance reclaims once readers are gone (partial)

Code: src/utils/mtev_memory.c: mtev_memory_maintenance_ex, mtev_memory_maintenance, mtev_memory_gc.  Theorems in `SmrProps.lean`: `C84_barrier_partial`, `C84_asynch_partial`, `C84_returned`, `C84_try_violated`, `C84_collector_violated`.

Proved: a barrier with no section open frees all pending and returned blocks (C84_barrier_partial), so do asynchronous maintenance, collector and next maintenance (C84_asynch_partial; existence of a schedule, not fairness), and any maintenance frees what was returned (C84_returned). False of the code: a failed try clears the flag, so later maintenance does nothing until the next free (C84_try_violated); blocks freed by cleanup functions on the collector thread stay for ever (C84_collector_violated).

### C85 Files are served from below the document root only (partial)

Code: src/mtev_rest.c: mtev_rest_simple_file_handler, mtev_http_rest_init (mime types).  Theorems in `FileServeProps.lean`: `C85_confined_partial`, `C85_sibling_violated`, `C85_served_partial`, `C85_index_partial`, `C85_trailing_slash_violated`, `C85_refused_partial`, `C85_missing`, `C85_defined_partial`, `C85_dot_violated`, `C85_type_partial`, `C85_type_violated`.

Proved for every file system: what is sent is a real file below the root if no directory next to the root is named like it with one more character (C85_confined_partial); such files are sent (C85_served_partial, C85_index_partial); other places are refused (C85_refused_partial); defined unless the request leads to the root itself (C85_defined_partial); types follow extensions (C85_type_partial). False of the code: a sibling directory named root plus one character is served (C85_sibling_violated); a root written with a slash at its end refuses its files (C85_trailing_slash_violated); a request for the root itself looks behind the end of the resolved path (C85_dot_violated); a name without a dot is typed by its rest behind the first character (C85_type_violated). Races with changes of the file system are not modelled.

### C86 Command lines are split into the words written (partial)

Code: src/mtev_tokenizer.c: mtev_tokenize, token_scan, c_unescape.  Theorems in `TokenProps.lean`: `C86_words`, `C86_quotable`, `C86_round_trip`, `C86_missing_quote_partial`, `C86_missing_quote_violated`, `C86_leading_blank_violated`, `C86_in_place`, `C86_room`.

Proved: C86_words for every spelling, C86_quotable, C86_round_trip, C86_room, C86_in_place, and a missing double quote is an error (C86_missing_quote_partial). False of the code: an unfinished single quote, or a backslash at the end inside double quotes, drops the word silently (C86_missing_quote_violated); an escaped blank as first character ends the word (C86_leading_blank_violated).

### C87 Log lines reach every enabled output they are routed to, and no other (partial)

Code: src/utils/mtev_log.c: mtev_log_stream_new, mtev_log_stream_new_on_fd, mtev_log_stream_add_stream, mtev_log_stream_add_stream_filtered, mtev_log_stream_remove_stream, mtev_log_stream_set_flags, MATERIALIZE_DEPS, materialize_deps, mtev_log_final_resolve, mtev_log_line, log_stream_to_ls.  Theorems in `LogGraphProps.lean`: `C87_routed_partial`, `C87_asking_partial`, `C87_repaired`, `C87_returns_partial`, `C87_cycle_violated`, `C87_on_fd_violated`, `C87_late_type_violated`, `C87_hidden_attribute_violated`, `C87_span_violated`.

Proved for every history and graph: C87_routed_partial (exactly the ways), C87_asking_partial, C87_repaired (one mtev_log_stream_new repairs whatever went before), C87_returns_partial (graphs without loops within the stack's depth). False of the code: making a loop never returns (C87_cycle_violated); streams made on a descriptor or with a type registered late lose lines until the next stream is made (C87_on_fd_violated, C87_late_type_violated); a caller's attribute can pretend to be a built in one (C87_hidden_attribute_violated); a filter on span attributes refuses lines that have them (C87_span_violated).

### C88 Log records are complete lines with whole prefixes (partial)

Code: src/utils/mtev_log.c: mtev_log_line, mtev_log_writev, mtev_vlog.  Theorems in `LogFmtProps.lean`: `C88_split`, `C88_whole`, `C88_room`, `C88_signal_partial`, `C88_signal_violated`, `C88_timestamp`, `C88_place_partial`, `C88_place_violated`, `C88_result_violated`.

Proved: C88_split, C88_whole, C88_room, C88_timestamp for everything; C88_signal_partial up to 16384 bytes and C88_place_partial up to 63 bytes. False of the code: longer records in signal handlers read past the buffer (C88_signal_violated); long places are cut in the middle with the bracket lost (C88_place_violated); the result is 0 or -1, and -1 for completely written lines with a prefix (C88_result_violated).

### C89 Lines logged to a file are written once and in order (partial)

Code: src/utils/mtev_log.c: asynch_logio_writer, posix_logio_write, posix_logio_asynch_write, mtev_log_go_asynch, mtev_log_go_synch, asynch_log_ctx_init, asynch_log_push, asynch_log_pop, asynch_log_line, posix_logio_reopen.  Theorems in `LogAsyncProps.lean`: `C89_once_partial`, `C89_asynch_partial`, `C89_synch_partial`, `C89_one_writer`, `C89_order_violated`, `C89_race_violated`, `C89_left_behind_violated`, `C89_short_write_violated`, `C89_full_disk_violated`.

Proved for any number of threads and every interleaving: C89_once_partial (file and lines underway are a permutation of what was logged, through all mode changes), C89_asynch_partial (asynchronous mode: per-thread prefix, no freed memory), C89_synch_partial, C89_one_writer. False of the code: going back to synchronous mode reorders a thread's lines (C89_order_violated), leaves lines in the queue (C89_left_behind_violated) and makes several readers of a one-reader queue, which read freed memory (C89_race_violated); the rest of a short write is dropped (C89_short_write_violated); a refused write aborts the process (C89_full_disk_violated).

### C90 A peer is accepted only with a certificate that passes every check asked for (partial)

Code: src/eventer/eventer_SSL_fd_opset.c: verify_cb, eventer_ssl_verify_cert, eventer_ssl_verify_dates, eventer_SSL_setup; src/mtev_listener.c: mtev_listener_acceptor; src/eventer/eventer_SSL_fd_opset.h.  Theorems in `TlsProps.lean`: `C90_sound_partial`, `C90_complete`, `C90_switches`, `C90_ignore_dates_violated`, `C90_no_certificate_violated`, `C90_message_violated`.

Partial: sound and complete for each switch, for every chain, with the dates checked and a chain shown. Violated: with ignore_dates a revoked or forged certificate is let in once expired; a peer without a certificate is let in because the answer is read the wrong way round; a certificate not valid yet is reported as expired.

### C91 The names taken from a certificate are those in it (partial)

Code: src/eventer/eventer_SSL_fd_opset.c: eventer_ssl_get_san_values, eventer_ssl_get_peer_subject; src/mtev_listener.c: mtev_listener_acceptor; src/mtev_reverse_socket.cpp: mtev_reverse_socket_acceptor.  Theorems in `TlsProps.lean`: `C91_room`, `C91_names_partial`, `C91_zero_violated`, `C91_stale_violated`, `C91_subject`, `C91_common_name_partial`, `C91_common_name_violated`.

Buffers are respected for every certificate, and the subject is that of the last certificate judged. Partial: the names are those of the certificate when it has names without zero bytes that fit. Violated: a zero byte cuts a name short, names of the authority stay when the peer has none, and an organisation called x/CN=admin is known as admin.

### C92 A TLS connection uses the settings asked for (partial)

Code: src/eventer/eventer_SSL_fd_opset.c: eventer_ssl_ctx_new, eventer_ssl_ctx_new_ex, ssl_ctx_key_write, ssl_ctx_cache_get, ssl_ctx_cache_set, eventer_ssl_use_crl.  Theorems in `TlsCtxProps.lean`: `C92_context_partial`, `C92_one_change`, `C92_settings`, `C92_files_partial`, `C92_no_certificate_violated`, `C92_joined_violated`, `C92_ca_file_violated`, `C92_inline_violated`, `C92_shared_crl_violated`.

Partial: role, layer and the joined text of the settings up to the first missing one agree, within the time limit, for every history. Violated: clients without a certificate share contexts whatever authority they ask for, joined values are ambiguous, ca_file has no effect, revocation lists are not used with inline authorities and leak into contexts of others.

### C93 A connection speaks the protocol versions its layer asks for (partial)

Code: src/eventer/eventer_SSL_fd_opset.c: eventer_ssl_ctx_new_ex (layer parsing); docs-md/config/listeners.md.  Theorems in `TlsCtxProps.lean`: `C93_versions_partial`, `C93_default`, `C93_protocol_violated`, `C93_documented_default_violated`, `C93_long_violated`.

Partial: for layers with options, up to 255 bytes, with the names the code knows. Violated: a protocol alone limits nothing, long layers are cut, the documented default written out limits nothing.

### C94 The application protocol agreed on is one both sides speak (partial)

Code: src/eventer/eventer_SSL_fd_opset.c: next_proto_cb, alpn_select_proto_cb, eventer_alpn_select_always, eventer_ssl_alpn_register, eventer_ssl_alpn_advertise; src/eventer/eventer_SSL_fd_opset.h: EVENTER_SSL_ALPN_MATCHER; src/mtev_http1.c: http11_alpn_mather; src/mtev_http2.c: mtev_http2_init.  Theorems in `AlpnProps.lean`: `C94_offered`, `C94_known`, `C94_off`, `C94_h2_partial`, `C94_http11_violated`, `C94_unknown_violated`, `C94_unadvertised_violated`, `C94_always_violated`, `C94_advertise`, `C94_advertise_all`, `C94_next_violated`.

Partial: what is chosen was offered; HTTP/2 is chosen when offered, unless HTTP/1.1 stands before it and behind something else. Violated: HTTP/1.1 alone is never agreed on, an unknown protocol of eight bytes is agreed on instead, protocols not advertised are taken, protocols registered without a function take the client's first, only the first is shown to clients of the older extension.

### C95 The dates of a certificate mean what the calendar says (partial)

Code: src/eventer/OETS_asn1_helper.c: OETS_ASN1_TIME_get, pint.  Theorems in `Asn1TimeProps.lean`: `C95_calendar`, `C95_dates_partial`, `C95_around_1970_violated`, `C95_format`, `C95_no_such_day_violated`.

Partial: all dates of the calendar, apart from zones beyond twelve hours and times around the start of 1970. Violated: days that do not exist are read as days of the next month.

### C96 Restarts of the child are limited (partial)

Code: src/utils/mtev_watchdog.c: mtev_watchdog_ratelimit, update_retries, mtev_watchdog_start_child; docs-md/config/watchdog.md.  Theorems in `WatchMonProps.lean`: `C96_config`, `C96_limit_partial`, `C96_gives_up`, `C96_crash_violated`, `C96_hang_violated`, `C96_one_violated`.

The limit holds for children that simply end. Violated: crashes with asynchronous dumps, and hangs killed without them, are never counted; with retries=1 no restart at all is allowed.

### C97 A child that dies is replaced, one at a time (partial)

Code: src/utils/mtev_watchdog.c: mtev_watchdog_start_child, emancipate; docs-md/config/watchdog.md.  Theorems in `WatchMonProps.lean`: `C97_dead_first_partial`, `C97_overlap_partial`, `C97_three_violated`, `C97_decision`, `C97_reason`, `C97_starts`, `C97_deaf_violated`.

Partial for the overlap of an emancipated child (it has closed its descriptors). Violated: three children at once, and a monitor that becomes deaf.

### C98 A child is taken for hung exactly if a heart is silent for longer than its time limit (partial)

Code: src/utils/mtev_watchdog.c: it_ticks, last_tick_time, mtev_heartcheck, mtev_watchdog_create, mtev_watchdog_enable, mtev_watchdog_disable, mtev_watchdog_enable_all, mtev_watchdog_disable_all; src/utils/mtev_watchdog.h.  Theorems in `WatchHeartProps.lean`: `C98_silent_partial`, `C98_limit`, `C98_found`, `C98_look`, `C98_never_violated`, `C98_enable_violated`, `C98_enable_all_violated`, `C98_disabled`, `C98_front`, `C98_create_partial`, `C98_shared_violated`.

Violated: a hang before the first beat is never found; enabling races with the check; enable_all gives no grace; two threads creating hearts may share one.

### C99 Managed applications are kept running, one instance each, with pauses between failures (partial)

Code: src/utils/mtev_watchdog.c: launch_managed, process_managed, cleanup_managed, mtev_watchdog_start_child; docs-md/config/managed.md.  Theorems in `WatchManProps.lean`: `C99_one_partial`, `C99_stopped_violated`, `C99_back_partial`, `C99_clean_partial`, `C99_at_once`, `C99_pause`, `C99_others_violated`, `C99_term_partial`, `C99_term_violated`, `C99_term_stopped_violated`.

Partial: nobody stops an application. Violated: a stopped application is taken for dead and gets a second instance; an exit 0 of one application restarts others at once and resets their pauses; an application just forked (or once stopped) is not told to terminate.

### C100 A managed application is started as configured (partial)

Code: src/mtev_main.c: mtev_main_load_managed; src/utils/mtev_watchdog.c: mtev_watchdog_manage, launch_managed; docs-md/config/managed.md.  Theorems in `WatchConfProps.lean`: `C100_env_partial`, `C100_args`, `C100_skipped`, `C100_environment_violated`, `C100_override_violated`, `C100_cut_violated`, `C100_path_violated`.

Violated: environment="false" is documented and has no effect; an <env> cannot override the parent's variable; a pulled value is cut at 8191 bytes; exec is not searched for in PATH although documented.

### C101 Names of hearts are safe in the glider's command, and time limits are told truly (partial)

Code: src/utils/mtev_watchdog.c: mtev_watchdog_set_name, mtev_watchdog_get_name, run_glider, mtev_watchdog_get_timeout, mtev_watchdog_get_timeout_timeval, mtev_watchdog_remaining; src/utils/mtev_watchdog.h; src/mtev_defines.h: add_timeval, sub_timeval.  Theorems in `WatchNameProps.lean`: `C101_name`, `C101_command_partial`, `C101_cut_violated`, `C101_limit_partial`, `C101_limit_violated`, `C101_null_violated`, `C101_left_partial`.

Violated: the command is cut at 1023 bytes; a limit of 2148 s or more overflows in mtev_watchdog_get_timeout_timeval; mtev_watchdog_get_timeout(NULL) is documented to be 0 and is not.

### C102 Settings are inherited from enclosing sections and by name (partial)

Code: src/mtev_conf.c: mtev_conf_get_into_hash, mtev_conf_get_elements_into_hash, mtev_conf_get_namespaced_hash, mtev_conf_get_string; docs-md/config/inherit.md.  Theorems in `ConfTreeProps.lean`: `C102_attribute`, `C102_own`, `C102_hash_partial`, `C102_returns_partial`, `C102_nested_violated`, `C102_late_violated`, `C102_ring_violated`.

The attribute part is proved for every document. Sets of values: for documents written the usual way (configs first, none nested). Violated: a config inside a config (the documentation's own second example), a config after a subsection, and a circle of inherit never returns.

### C103 A section with require_env is used exactly if the environment meets the requirement (partial)

Code: src/mtev_conf.c: mtev_conf_env_off; docs-md/config/README.md.  Theorems in `ConfEnvProps.lean`: `C103_off_partial`, `C103_none`, `C103_bad_regex`, `C103_negation_violated`, `C103_negation_off_violated`, `C103_leftover_violated`, `C103_unset_violated`, `C103_regex_violated`.

Partial: only the innermost requirement is negated. Violated: `!` leaks into requirements further in, an empty requirement re-reads the buffer, an unset variable meets `FOO=`, a regex with `=` in it is not a regex.

### C104 References to the environment within values are filled in (partial)

Code: src/mtev_conf.c: mtev_conf_generic_fixup, mtev_conf_env_interpolate.  Theorems in `ConfEnvProps.lean`: `C104_filled_partial`, `C104_untouched`, `C104_one_result`, `C104_overread_violated`, `C104_skipped_violated`, `C104_braces_violated`, `C104_rescan_violated`, `C104_endless_violated`, `C104_cut_violated`.

Partial: short well-formed references that are not followed by others after an empty result. Violated: reading past the end, references skipped, text lost, contents of variables expanded again (forever, for one naming itself), values cut at 1023 bytes.

### C105 A value that is a reference to the environment is replaced (partial)

Code: src/mtev_conf.c: mtev_conf_OLD_env_fixup, mtev_conf_get_string.  Theorems in `ConfEnvProps.lean`: `C105_form_partial`, `C105_only`, `C105_string_partial`, `C105_hash_violated`, `C105_name_violated`, `C105_default_violated`.

Partial: names up to 127 bytes and defaults without `:{`. Violated: not replaced in sets of values; long names look up another variable; a default with `:{` is cut.

### C106 Integers in the configuration are read as the numbers written (partial)

Code: src/mtev_conf.c: mtev_conf_string_to_int32, mtev_conf_string_to_uint32, mtev_conf_get_int32, mtev_conf_set_int.  Theorems in `ConfNumProps.lean`: `C106_decimal32_partial`, `C106_bases32_partial`, `C106_decimal64`, `C106_roundtrip`, `C106_absent`, `C106_range_violated`, `C106_negative_violated`, `C106_junk_violated`, `C106_bases_violated`.

Partial: numbers that fit. Violated: silently truncated to 32 bits, negative read as large, junk read as zero, bases differ between widths.

### C107 Truth values in the configuration (proved)

Code: src/mtev_conf.c: mtev_conf_string_to_boolean, mtev_conf_get_boolean.  Theorems in `ConfNumProps.lean`: `C107_true`, `C107_roundtrip`.

Proved in full.

### C108 Sections of the configuration are held by many readers or one writer (partial)

Code: src/mtev_conf.c: mtev_conf_acquire_section_read, mtev_conf_acquire_section_write, mtev_conf_release_section_read, mtev_conf_release_section_write; src/utils/mtev_thread.c: mtev_thread_id.  Theorems in `ConfLockProps.lean`: `C108_exclusive_partial`, `C108_free_partial`, `C108_release_partial`, `C108_nested_partial`, `C108_upgrade_partial`, `C108_progress_partial`, `C108_number_violated`, `C108_zero_violated`.

Partial: the parties have different non-zero numbers. Violated: a coroutine's number is the lower half of an address; equal numbers share the lock and a zero number is let in at once.

### C109 Saving an XML file replaces it entirely or not at all (partial)

Code: src/mtev_xml.c: mtev_xmlSaveToFile, mtev_xmlSaveFormatFile.  Theorems in `XmlSaveProps.lean`: `C109_atomic_partial`, `C109_history_partial`, `C109_succeeds`, `C109_short_violated`, `C109_leftover_violated`.

Partial: no write fails. Violated: a failed write (full disk) is not noticed and the old text is gone; with both leftovers beside the file the save fails and the file is gone.

### C110 A section kept in files of its own is read back after a crash (partial)

Code: src/mtev_conf.c: mtev_conf_read_into_node; src/mtev_xml.c: mtev_xmlSaveToFile.  Theorems in `XmlSaveProps.lean`: `C110_kept_partial`, `C110_once_partial`, `C110_twice_violated`, `C110_attrs_partial`, `C110_attrs_violated`, `C110_lost_violated`.

Partial: not lost if no write fails; once if nothing was left over. Violated: read back up to three times after a crash, attributes missing after a crash between the two renames, lost after a full disk.

### C111 The configuration as text in memory is complete (partial)

Code: src/mtev_xml.c: mtev_xmlSaveToBuffer; src/mtev_conf.c: mtev_conf_xml_in_mem, mtev_conf_reload.  Theorems in `XmlBufProps.lean`: `C111_length_partial`, `C111_text_partial`, `C111_end_violated`, `C111_long_violated`.

Partial: lengths that are not 8192 times a power of two, up to 2^30. Violated: the NUL is written past the end for the others; longer texts overflow.

### C112 Writing the configuration file and what it includes (partial)

Code: src/mtev_conf.c: mtev_conf_write_file, write_out_include_files.  Theorems in `ConfFileProps.lean`: `C112_old_or_new`, `C112_untouched`, `C112_failed`, `C112_all_partial`, `C112_success`, `C112_unreported_violated`, `C112_mixed_violated`, `C112_twice_violated`.

Old or new, untouched and failed are proved in full; all new is partial (no failing call, no file included twice). Violated: failures of included files are not reported, not all at once, a file included twice loses changes.

### C113 Included files are mixed in and written back each to its own (partial)

Code: src/mtev_conf.c: mtev_conf_magic_mix, mtev_conf_kansas_city_shuffle_undo, mtev_conf_kansas_city_shuffle_redo.  Theorems in `ConfInclProps.lean`: `C113_load`, `C113_apart_partial`, `C113_together_partial`, `C113_write_partial`, `C113_add_partial`, `C113_add_violated`, `C113_empty_violated`, `C113_inner_violated`, `C113_front_violated`.

Loading is proved in full; writing is partial: no empty file but the first, no inner children with several files, new elements not at the front. Violated: null pointers and assertions in those cases, and adding an element just after loading.

### C114 Removing an included section removes exactly that section (partial)

Code: src/mtev_conf.c: mtev_conf_include_remove, remove_emancipated_child_node, mtev_conf_remove_section; src/mtev_conf.h: CONF_REMOVE.  Theorems in `ConfInclProps.lean`: `C114_one_partial`, `C114_ring_violated`, `C114_bare_violated`.

Partial: one file matches the include. Violated: with two, removing an element of the first makes a ring that no walk leaves; the Lua interface leaves the root pointing to a freed element.

### C115 The backing store's files follow the sections (partial)

Code: src/mtev_conf.c: mtev_conf_backingstore_remove, mtev_conf_backingstore_dirty, mtev_conf_backingstore_write, mtev_conf_shatter_write.  Theorems in `ConfStoreProps.lean`: `C115_flush_partial`, `C115_history_partial`, `C115_quiet`, `C115_remove_partial`, `C115_change_partial`, `C115_retry_violated`, `C115_clock_violated`, `C115_mess_violated`.

Not written again is proved in full; the rest is partial: no save fails, the clock has moved on. Violated: a failed save is never retried, a change at a time up to that of the last write is never written, the files of a removed directory stay.

### C116 Lua: what string.pack packed string.unpack unpacks (partial)

Code: src/modules/lua_lpack.c: l_pack, l_unpack, doswap.  Theorems in `LuaPackProps.lean`: `C116_roundtrip_partial`, `C116_order`, `C116_types`, `C116_repeat`, `C116_safe_partial`, `C116_negative_violated`, `C116_init_violated`, `C116_count_violated`, `C116_length_violated`, `C116_word_violated`.

Byte order is proved in full. Round trip is partial (no `A`, no floating point), safety is partial (no `P` and `a`, sizes below 2^30, start from 1). Violated: negative lengths, start 0, counts near 2^31 read out of bounds; strings from 256 (`p`) or 32768 (`P`) bytes do not come back.

### C117 Lua: bit operations are those on 32-bit two's complement numbers (partial)

Code: src/modules/lua_bit.c: barg, BRET, bit_tobit, bit_bnot, BIT_OP, BIT_SH, bit_bswap, bit_tohex.  Theorems in `LuaBitProps.lean`: `C117_tobit`, `C117_bnot`, `C117_band`, `C117_bor`, `C117_bxor`, `C117_lshift`, `C117_rshift`, `C117_arshift`, `C117_rol_partial`, `C117_ror_partial`, `C117_rol_violated`, `C117_bswap`, `C117_tohex_partial`, `C117_tohex_violated`.

Proved except rotations by multiples of 32 and a hex count of -2^31, which C leaves undefined (violated).

### C118 A lock file is held by one process at a time (partial)

Code: src/utils/mtev_lockfile.c: mtev_lockfile_acquire, mtev_lockfile_acquire_owner, mtev_lockfile_release.  Theorems in `LockfileProps.lean`: `C118_exclusive_partial`, `C118_free_partial`, `C118_crash`, `C118_fail`, `C118_owner_partial`, `C118_exclusive_violated`, `C118_owner_violated`, `C118_noowner_violated`.

Failing and crash are proved in full. Exclusion is partial: one caller per process; with two the lock is lost when one releases. The reported owner may be an earlier one or missing (violated).

### C119 The directories of a file are made (partial)

Code: src/utils/mtev_mkdir.c: mkdir_for_file.  Theorems in `MkdirProps.lean`: `C119_ok_partial`, `C119_only_partial`, `C119_can_partial`, `C119_top_violated`, `C119_file_violated`, `C119_long_violated`.

Partial: paths below PATH_MAX with a directory part, no file in the way. Violated: a file in the root or without a slash gives -1; a file with the directory's name gives success; longer paths are read out of bounds.

### C120 The console runs the command that was meant (proved)

Code: src/mtev_console_state.c: _mtev_console_state_do, mtev_console_state_add_cmd, cmd_info_comparek.  Theorems in `ConCmdProps.lean`: `C120_first`, `C120_exact`, `C120_unique`, `C120_ambiguous`, `C120_question`, `C120_unknown`, `C120_letters`.

Proved for every table.

### C121 Completion of console commands is complete and safe (partial)

Code: src/mtev_console_complete.c: mtev_console_opt_delegate, completion_matches.  Theorems in `ConCmdProps.lean`: `C121_all_partial`, `C121_first_violated`, `C121_common`.

The common beginning and the bounds are proved in full. All completions is partial: the first command typed in full has none (violated).

### C122 Applying a console command puts each argument in its place (partial)

Code: src/mtev_console_state.c: mtev_console_generic_apply, apply_replace.  Theorems in `ConApplyProps.lean`: `C122_safe`, `C122_replace_partial`, `C122_same_partial`, `C122_long_violated`, `C122_apply_partial`.

Partial: names up to 253 bytes; longer ones are cut, and what is replaced is another name (violated).

### C123 Ranges expand to what they say (partial)

Code: src/mtev_console_state.c: expand_range.  Theorems in `ConApplyProps.lean`: `C123_up_partial`, `C123_down`, `C123_step`, `C123_overflow_violated`, `C123_limit_violated`, `C123_digits_violated`, `C123_ip`, `C123_refused_partial`, `C123_mask_violated`.

Partial: the number of values below 2^31. Violated: `0..2147483647` overflows the count, the limit of 256 does not apply to numbers, the end of a range with more than 31 digits is ignored, a mask of 1 bit shifts into the sign.

### C124 The zone at a time is the one in force (partial)

Code: src/utils/tzinfo.c: libtz_tzzone_at.  Theorems in `TzinfoProps.lean`: `C124_none`, `C124_at_partial`, `C124_near_partial`, `C124_wrong_violated`, `C124_last_violated`, `C124_single_violated`, `C124_exact_violated`.

Proved without transitions; partial for 2^m transitions and times that are none of them. Violated: with 5 transitions a wrong zone is found, after the last of 3 and with a single one the array is overrun, at an exact transition the zone before it is found.

### C125 Reading a zone file is safe and gives what is in it (partial)

Code: src/utils/tzinfo.c: libtz_open, parse_tzfile, libtz_tzinfo_name.  Theorems in `TzinfoProps.lean`: `C125_parse`, `C125_roundtrip`, `C125_exact`, `C125_zone_name`, `C125_name_partial`, `C125_name_violated`.

Reading is proved in full. The zone's own name is partial: if all zones are summer time it is read from behind the table (violated).

### C126 Zones in formats (partial)

Code: src/utils/tzinfo.c: libtz_strftime.  Theorems in `TzinfoProps.lean`: `C126_offset_partial`, `C126_offset_violated`, `C126_safe_partial`, `C126_format_partial`, `C126_long_violated`.

Partial: results below 2047 bytes, offsets other than -2^31 (violated: cut, overflow).

### C127 Giving up privileges is final (partial)

Code: src/utils/mtev_security.c: mtev_security_usergroup, isuinteger.  Theorems in `SecurityProps.lean`: `C127_drop`, `C127_root_partial`, `C127_groups_violated`, `C127_same_violated`, `C127_number_violated`, `C127_alone_violated`, `C127_effective`, `C127_back`, `C127_unknown`.

No way back to user 0 is proved for every process whose real user changes; the full change is partial: supplementary groups are kept. Violated: supplementary groups, a set-user-id program whose real user is the one asked for, numbers from 2^32, user without group.

### C128 What a telnet client sends arrives (partial)

Code: src/mtev_console_telnet.c: mtev_console_telnet_telrcv.  Theorems in `TelnetProps.lean`: `C128_stream_partial`, `C128_portions_partial`, `C128_portions_violated`, `C128_sub_violated`, `C128_bounds`, `C128_lines_partial`, `C128_ignored`, `C128_return`, `C128_mapped`, `C128_shared_violated`, `C128_shared_partial`.

Partial: suboptions up to six bytes, no line mode unless lines are read together, several connections only if whole items are read at once. Violated: longer suboptions are cut (`sizeof` of a pointer), CR and LF read separately in line mode, the receiver's state is shared by all connections.

### C129 Telnet options are agreed on and negotiation ends (partial)

Code: src/mtev_console_telnet.c: mtev_console_telnet_willoption, mtev_console_telnet_wontoption, mtev_console_telnet_dooption, mtev_console_telnet_dontoption, mtev_console_telnet_send_do.  Theorems in `TelOptProps.lean`: `C129_agree`, `C129_ends`, `C129_refused_violated`, `C129_only`, `C129_repeat`, `C129_request`, `C129_off`, `C129_counter`.

Violated: an end that does not support an option and is asked for it refuses, but keeps it as switched on and waits for an answer that does not come.

### C130 Spans are encoded in full or reported as too long (partial)

Code: src/utils/mtev_zipkin_encode.h: ze_Zipkin_Span, ze_Zipkin_Annotation, ze_Zipkin_BinaryAnnotation, ze_Zipkin_Endpoint, ze_Zipkin_String; src/utils/mtev_zipkin.c: mtev_zipkin_encode, mtev_zipkin_encode_list, mtev_zipkin_span_publish.  Theorems in `ZipkinProps.lean`: `C130_length`, `C130_encode_partial`, `C130_half_violated`, `C130_list_partial`, `C130_publish_partial`, `C130_publish_violated`.

Bounds and length are proved in full. Partial: the buffer has to be twice as long as the encoding. Violated for every span: the macro compares all that was written with the room that is left, so from half of the buffer on nothing is written though success is reported; every span above 2097 bytes is published with uninitialised memory.

### C131 Spans have the identities and are sampled as documented (partial)

Code: src/utils/mtev_zipkin.c: mtev_zipkin_span_new, mtev_zipkin_new_child; src/utils/mtev_zipkin_encode.h: ze_get_traceid.  Theorems in `ZipkinSpanProps.lean`: `C131_root`, `C131_given`, `C131_first`, `C131_child`, `C131_force`, `C131_always`, `C131_debug`, `C131_sampling`, `C131_zero_violated`.

Violated only for probability 0: drawing 0 makes a span.

### C132 A span covers its annotations (partial)

Code: src/utils/mtev_zipkin.c: mtev_zipkin_span_annotate.  Theorems in `ZipkinSpanProps.lean`: `C132_start`, `C132_duration_partial`, `C132_within`, `C132_duration_violated`.

The start is proved in full; the end is partial: no time before the start of the span. Violated: an earlier time moves the start but not the duration.

### C133 Identities in headers survive the way to the server (partial)

Code: src/utils/mtev_zipkin.c: mtev_zipkin_str_to_id, mtev_zipkin_client_trace_hdr, mtev_zipkin_client_span_hdr, mtev_zipkin_client_parent_hdr; src/mtev_http.c: mtev_http_begin_span.  Theorems in `ZipkinSpanProps.lean`: `C133_digits_partial`, `C133_roundtrip`, `C133_propagate`, `C133_debug`, `C133_long_violated`, `C133_junk_violated`, `C133_refused`, `C133_case`.

Round trip and server side are proved for all identities; digits partial: numbers below 2^64. Violated: longer identities all become -1, some texts that are no numbers are taken.

### C134 Spans attached to events live as long as they are held and are published once (partial)

Code: src/utils/mtev_zipkin.c: mtev_zipkin_span_ref, mtev_zipkin_span_drop, zipkin_eventer_ctx_free, mtev_zipkin_attach_to_eventer, mtev_zipkin_client_new, zipkin_eventer_callback_prep, zipkin_eventer_callback_cleanup, zipkin_eventer_init, zipkin_eventer_deinit, zipkin_eventer_copy.  Theorems in `ZipkinCtxProps.lean`: `C134_safe_partial`, `C134_alive`, `C134_once`, `C134_counted_partial`, `C134_published_partial`, `C134_inherit`, `C134_callback`, `C134_crash_violated`, `C134_copy_violated`, `C134_attach_violated`, `C134_null_violated`.

Proved for all histories: no use after free (for programs that use only spans they have), counters never below the references held, at most one publication. Partial: freed and published for certain only if events traced by callback are not copied inside their callback. Violated: freeing an event with a named callback whose own span was not sampled reads through NULL; a copy made inside a traced callback loses its span; attaching an event's own span to it uses freed memory; NULL for the current event is not accepted though documented.

### C135 A coroutine that waits for work goes on when all of it is done, and not before (partial)

Code: src/eventer/eventer_aco_opset.c: eventer_aco_gate, eventer_aco_gate_wait, eventer_aco_asynch_queue_subqueue_deadline_gated, eventer_aco_simple_asynch_queue_subqueue_gated, eventer_aco_try_run_asynch_queue_subqueue_gated, eventer_aco_run_asynch_queue_subqueue_gated, eventer_aco_asynch_wrapper, eventer_aco_simple_asynch_wrapper, eventer_aco_mode_asynch_wrapper.  Theorems in `AcoGateProps.lean`: `C135_safe_partial`, `C135_no_hang`, `C135_wait`, `C135_last`, `C135_enter`, `C135_released`, `C135_leak_violated`, `C135_try_violated`, `C135_try_pending_violated`, `C135_shared_violated`.

Proved for all histories in which a gate is used by the coroutine that made it and no queue is full. Violated: a failed try frees the gate that was passed in, and the wait that follows (or the completion of an earlier job) uses it; a gate shared by two coroutines resumes the wrong one and leaves the other waiting for ever; the forms without a gate never free the gate they make.

### C136 Calls of a coroutine wait as long as they must and leave nothing behind (partial)

Code: src/eventer/eventer_aco_opset.c: eventer_aco_sleep, priv_aco_timeout, eventer_aco_callback_wrapper, eventer_aco_yield, eventer_aco_resume; src/eventer/eventer_impl.c: eventer_aco_read, eventer_aco_write, eventer_aco_accept, eventer_aco_shutdown.  Theorems in `AcoIoProps.lean`: `C136_safe`, `C136_clean`, `C136_woken`, `C136_at_once`, `C136_waits`, `C136_default`, `C136_times_out`, `C136_sleeps`, `C136_result_partial`, `C136_timeout_partial`, `C136_sleep_violated`.

Proved for all histories: no assertion fails, descriptors and timers are registered exactly while waited for. Partial: first result and no false timeout only for coroutines that never sleep. Violated: eventer_aco_sleep leaves private_errno set to ETIMEDOUT, so the next call that has to wait reports a timeout when its descriptor becomes ready, even without any timeout.

### C137 Console output arrives complete, in order and with the line ends of telnet (partial)

Code: src/mtev_console.c: nc_write_with_lock, nc_telnet_cooker, nc_cmd_vprintf, nc_write, mtev_console_continue_sending; src/mtev_console_telnet.c: netclear.  Theorems in `ConOutProps.lean`: `C137_text`, `C137_plain`, `C137_lines`, `C137_exact_partial`, `C137_kept_partial`, `C137_flush`, `C137_safe_partial`, `C137_overflow_violated`, `C137_overflow_telnet_violated`, `C137_double_violated`, `C137_option_violated`, `C137_abort_violated`, `C137_abort_lost_violated`.

Proved for all histories: text complete and in order with only carriage returns added, each line feed after a carriage return, plain output exact, everything sent once the descriptor takes enough. Violated: nc_write_with_lock does not store the size it reallocates to, so a following nc_printf computes a negative room and writes past the buffer (also on telnet after a blocked send); a send blocked between CR and LF yields CR CR LF; telnet option 10 gets a CR inserted; netclear leaves outbuf_completed, so the next cooking reads outside the buffer and plain output is lost.

### C138 The tab key offers the commands that fit and only lengthens the word being typed (partial)

Code: src/mtev_console_complete.c: mtev_console_opt_delegate, mtev_console_completion, noitedit_completion_function, completion_matches, mtev_edit_complete; src/mtev_tokenizer.c: mtev_tokenize.  Theorems in `ConTabProps.lean`: `C138_offered_partial`, `C138_press_partial`, `C138_only`, `C138_nothing`, `C138_quote_violated`, `C138_abbreviation_violated`, `C138_shorter_violated`.

Proved for all command trees and lines whose earlier words are spelled in full; pressing the key proved for words spelled as the commands are. Violated: tab in the first word after an open double quote leaves no arguments, and mtev_console_opt_delegate falls through to look up argv[0], which is NULL; after an abbreviated word the completions of that word are offered for the next; completions that differ in capitals shorten the word.

### C139 A compressed download is passed on complete and in order (partial)

Code: src/utils/mtev_compress.c: mtev_curl_write_callback, mtev_decompress_create_curl_helper, mtev_stream_decompress, mtev_stream_decompress_init.  Theorems in `CurlHelpProps.lean`: `C139_in_order`, `C139_complete`, `C139_returns_partial`, `C139_trailing_violated`, `C139_stall_violated`, `C139_pause_violated`, `C139_plain_violated`, `C139_plain_partial`, `C139_setup_violated`.

Proved for all lawful decompressors (zlib and LZ4 are parameters, their laws are stated and shown satisfiable): order, no gaps, completeness at the end of the stream. Returning proved if no data follows the end of the stream and the function takes at least one byte. Violated: data after the end of a gzip stream loops for ever; a function that takes nothing loops for ever; one that returns more than it was given (curl's pause) underflows the length; uncompressed pieces over 8192 bytes fail; the gzip helper's z_stream is used uninitialised.

### C140 Idle connections are terminated, active ones are not (partial)

Code: src/mtev_listener.c: mtev_acceptor_timeout, mtev_acceptor_closure_mark_read, mtev_acceptor_closure_mark_write, mtev_acceptor_closure_readwrite_age, mtev_listener_accept_ssl.  Theorems in `ListenProps.lean`: `C140_active_partial`, `C140_idle_partial`, `C140_write_violated`, `C140_race_violated`, `C140_handshake_violated`.

Proved for all histories: not before the timeout if the clock of the timer's thread is not behind the last read; by timeout + min(timeout, 5 s) + 1 ms once the handshake is over and while the event is found. Violated: what is sent does not count (the age is taken from the last read twice); a read after the timer's thread read the clock terminates the connection at once; a connection in its TLS handshake is told once, ignores it, and is never terminated.

### C141 Every accepted connection is served or closed (partial)

Code: src/mtev_listener.c: mtev_listener_acceptor, mtev_acceptor_closure_free; src/eventer/eventer_impl.c: eventer_choose_owner_pool.  Theorems in `ListenProps.lean`: `C141_each`, `C141_all`, `C141_interrupt_violated`, `C141_owner_partial`, `C141_pool_violated`.

Proved for all sequences of distinct descriptors, and the choice of the thread. Violated: an interrupted accept is not repeated; a named pool is used though fanout is off.

### C142 The name of a TLS peer is the common name of its certificate (partial)

Code: src/mtev_listener.c: mtev_listener_accept_ssl, mtev_acceptor_closure_remote_cn.  Theorems in `ListenProps.lean`: `C142_name_partial`, `C142_anonymous`, `C142_other_violated`, `C142_slash_violated`.

Proved if no CN= stands before the common name and it has no slash. Violated: an organisation named CN=x gives the peer the name x; names are cut at slashes.

### C143 The control port runs the handler of the command that was sent (partial)

Code: src/mtev_listener.c: mtev_control_dispatch_as11, mtev_control_dispatch_delegate.  Theorems in `ListenProps.lean`: `C143_handler`, `C143_command_partial`, `C143_end`, `C143_split_violated`.

Handlers proved for all registrations; the command proved if its four bytes are there in the first callback, in any pieces. Violated: if they are not, bytes of a local variable that was never written are used instead of those of the earlier callback.

### C144 A listener listens on its address and removes nothing but an old socket (partial)

Code: src/mtev_listener.c: mtev_listener.  Theorems in `ListenProps.lean`: `C144_address_partial`, `C144_starts`, `C144_success`, `C144_closed`, `C144_kept_partial`, `C144_removed_violated`, `C144_path_violated`.

inet_pton is a parameter. Proved: the address bound for paths up to 107 bytes, starting, closing on failure, that only the given path is removed. Violated: the test of the mode also holds for regular files, which are removed; longer paths are cut and something else is bound.

### C145 Exactly the configured listeners are started (partial)

Code: src/mtev_listener.c: mtev_listener_reconfig, mtev_listener_skip, mtev_listener_should_skip.  Theorems in `ListenProps.lean`: `C145_started`, `C145_settings_partial`, `C145_tls_violated`.

Proved for all sections (paths excepted in the exact characterisation). Violated: ssl=on without an sslconfig is started without TLS.

### C146 The text of a peer's address is its address (partial)

Code: src/mtev_listener.c: mtev_convert_sockaddr_to_buff.  Theorems in `ListenProps.lean`: `C146_text_partial`, `C146_room`, `C146_long_violated`.

Proved for IPv4, for IPv6 texts up to 27 bytes, for paths; the bound for all. Violated: longer IPv6 texts give an empty answer.

### C147 Requests on a connection are served in order, each once (partial)

Code: src/mtev_http1.c: mtev_http1_session_drive, mtev_http1_complete_request, mtev_http1_request_release, mtev_http1_response_release.  Theorems in `HttpConnProps.lean`: `C147_order_partial`, `C147_served_partial`, `C147_pipelined_violated`, `C147_early_violated`, `C147_smuggled_violated`, `C147_bad_body_violated`.

The parsers of heads and bodies are parameters (C33, C35, C60, C61). Proved for clients that wait for each response and handlers that take the whole body before they answer. Violated otherwise: everything read beyond a request is released with it, so a pipelined request, or one sent after an early response to an upload, is never answered; if only its head was read so far, its body is then taken for a request; and after a body that cannot be read the connection goes on with whatever follows.

### C148 The websocket client's handshake (partial)

Code: src/mtev_websocket_client.c: send_reqheader, recv_resheader, mtev_websocket_client_send_handshake, mtev_websocket_client_recv_handshake, mtev_websocket_client_drive.  Theorems in `WsClientProps.lean`: `C148_request_partial`, `C148_long_violated`, `C148_blocked_violated`, `C148_ready_partial`, `C148_ended`, `C148_only_partial`, `C148_split_violated`, `C148_message_violated`, `C148_case_violated`, `C148_status_violated`, `C148_overrun_violated`.

Proved: the request, up to 4095 bytes, if no write would block; readiness if the response arrives within one callback and ends there, in any pieces; and that readiness means the key followed the header's name. Violated: longer requests read beyond a buffer; a write that would block ends the connection; a response split over callbacks is refused (the first part is forgotten); one that comes together with a message is never seen; the name of the header is compared with its capitals; the status does not matter; a response without the header is searched beyond its end.

### C149 A websocket client exists until it is freed, and not longer (partial)

Code: src/mtev_websocket_client.c: mtev_websocket_client_new, mtev_websocket_client_new_noref, mtev_websocket_client_cleanup, mtev_websocket_client_free, mtev_websocket_client_send, mtev_websocket_client_is_closed.  Theorems in `WsClientProps.lean`: `C149_released_partial`, `C149_noref`, `C149_callback_partial`, `C149_leak_violated`, `C149_send_violated`, `C149_closed_violated`, `C149_inside_violated`.

Proved for clients whose connection ends before they are freed, and for clients without a reference. Violated: freeing a connected client leaks it; sending after the connection ended uses freed memory; asking in the cleanup callback whether the client is closed deadlocks; freeing the client in its message callback uses freed memory.

### C150 The disk-backed hash is a map (partial)

Code: src/utils/mtev_huge_hash.c: mtev_huge_hash_create, mtev_huge_hash_store, mtev_huge_hash_replace, mtev_huge_hash_retrieve, mtev_huge_hash_delete, mtev_huge_hash_size, map_resize.  Theorems in `HugeHashProps.lean`: `C150_map_partial`, `C150_stored_partial`, `C150_hang_violated`, `C150_delete_violated`, `C150_pointer_partial`, `C150_pointer_violated`, `C150_iterating_violated`.

Proved for all sequences of calls by all threads: the answers are those of a map; and stores that need at most a fifth of the map succeed, also when it has to grow. Violated: a store that does not fit while less than four fifths of the map are in use is tried again for ever (a megabyte into a new table); deletes in a full map fail; the memory retrieve returns is not readable after the next write; a thread with an open iterator is told every key is missing.

### C151 Iterating over the disk-backed hash (partial)

Code: src/utils/mtev_huge_hash.c: mtev_huge_hash_create_iter, mtev_huge_hash_adv, mtev_huge_hash_destroy_iter, map_resize.  Theorems in `HugeHashProps.lean`: `C151_walk`, `C151_deadlock_violated`, `C151_self_violated`, `C151_released_partial`.

Proved: what an iterator returns, for all calls made meanwhile; and that closing the last iterator lets a waiting store go on. Violated: a delete (or any other call) by an iterating thread while another waits to resize deadlocks both; a store by an iterating thread that has to resize waits for itself.

### C152 Modules are brought up as configured, and failures are counted (partial)

Code: src/mtev_dso.c: mtev_dso_init, mtev_load_image, mtev_load_generic_image, mtev_load_loader_image, mtev_dso_load_failures.  Theorems in `DsoProps.lean`: `C152_reported_partial`, `C152_order`, `C152_once`, `C152_off`, `C152_config_violated`, `C152_init_violated`, `C152_nameless_violated`, `C152_twice_violated`, `C152_onload_violated`.

Proved: a count of 0 means every named module is loaded, no loader refused its configuration and no generic that accepted its own failed to initialise; if nothing fails the count is 0 and the callbacks come in the order stated; in all runs a module is configured and initialised at most once and not after refusing. Violated: a generic that refuses its configuration, a loader that fails to initialise, and a stanza without name are not counted; a loader that cannot be loaded counts twice; a name configured twice has its onload called again.

### C153 The image of a module is the first along the path (partial)

Code: src/mtev_dso.c: mtev_load_image.  Theorems in `DsoProps.lean`: `C153_first_partial`, `C153_absolute`, `C153_long_violated`, `C153_symbol`.

Proved for paths up to 4095 bytes. Violated: longer absolute names open the file named by their first 4095 bytes.

### C154 The fast clock runs with the system's and does not go back (partial)

Code: src/utils/mtev_time.c: mtev_get_nanos, mtev_calibrate_rdtsc_ticks, mtev_gettimeofday, mtev_now_us, mtev_now_ms, mtev_time_maintain, mtev_time_possibly_maintain; src/utils/mtev_time.h: mtev_time_maintain.  Theorems in `ClockProps.lean`: `C154_monotone_partial`, `C154_close`, `C154_outliers`, `C154_desync`, `C154_backwards_violated`, `C154_cpus_violated`, `C154_day`, `C154_day_system`, `C154_step_violated`, `C154_maintain_partial`, `C154_maintain_violated`.

Proved: between calibrations a CPU's readings do not decrease; a calibration that sets the clock leaves it within 101 ns at four at least of the six comparisons; after 15 s without one the system's clock is used; the three forms of the time of day agree. Violated: a reading after a calibration can be smaller than one before (by milliseconds, when the system's clock is slewed); a later reading on another CPU can be smaller; a step of the system's time of day is not seen for up to 15 s; mtev_time_maintain jumps to a null pointer before mtev_time_start_tsc and aborts when another thread maintains the same CPU, as pthread_mutex_trylock does not set errno. Missing: rounding of doubles (exact fractions are used).

### C155 The observer shows requests being served and those finished lately (partial)

Code: src/modules/http_observer.c: http_observer_rc, http_observer_prrp, http_observer_rs, http_observer_rl, http_observer_note_dyn, allocate_entry, requests_json_handler; src/mtev_http.c: mtev_http_log_request.  Theorems in `ObserverProps.lean`: `C155_row_partial`, `C155_note`, `C155_live_violated`, `C155_kept_partial`, `C155_wrap_violated`, `C155_race_violated`, `C155_zero_violated`, `C155_ids`.

Proved of the module's hooks alone: called in the order of a request's life they leave a row with the times and status, kept while fewer than max_count others finish and no listing finds it too old; new ids are fresh. Violated: mtev_http_log_request calls the log hook also when a request is received, so every request is taken for finished at once, with status 0, and nothing later changes its row; when the 32-bit counter wraps a request is overwritten too early; a listing drops requests that finished after it began; max_count 0 divides by zero.

### C156 A query to the observer lists the rows that meet its conditions (partial)

Code: src/modules/http_observer.c: requests_json_handler, row_want.  Theorems in `ObserverProps.lean`: `C156_rows_partial`, `C156_many_violated`, `C156_bad_violated`.

Proved for sixteen conditions at most whose expressions compile. Violated: later conditions are ignored; an expression that does not compile is met by any value.

### C157 A watch of keys in consul misses nothing (partial)

Code: src/modules/consul.c: mtev_consul_kv_attach_function, mtev_consul_kv_detach_function, mtev_consul_kv_tree_reader, kv_fetch_index.  Theorems in `ConsulProps.lean`: `C157_current_partial`, `C157_told`, `C157_timeout_violated`, `C157_big_violated`, `C157_spacing`, `C157_detach_partial`, `C157_detach_violated`.

Proved for timeouts that come before the header and 32-bit indexes: a watch asks for changes since an index only when the witness was told all up to it; spacing of fetches. Violated: a timeout after the header loses a change; larger indexes are cut, so fetches do not wait; the witness is called after detaching. Missing: the JSON and base64 of answers.

### C158 Services are registered and their health is pushed (partial)

Code: src/modules/consul.c: mtev_consul_register_f, mtev_consul_complete_service_registration, mtev_consul_push_health, mtev_consul_service_registry_f, service_register_deref, mtev_consul_interp, mtev_consul_health_handler, mtev_consul_set_passing_f.  Theorems in `ConsulProps.lean`: `C158_state`, `C158_push_partial`, `C158_pushes_violated`, `C158_stops`, `C158_health`, `C158_unknown`, `C158_ref_violated`, `C158_name_partial`, `C158_long_violated`.

Proved: the state follows what was asked for when consul accepts; with one registration each check has one timer; deregistered services' timers end and send nothing; the health sent and reported is the one set; names up to 127 bytes. Violated: registering again starts the timers again; looking up and giving back frees the registered service, as it starts without a reference; names of 128 bytes and more are not found.

### C159 Settings are taken from consul (partial)

Code: src/modules/consul.c: mtev_consul_conf_fixup, mtev_consul_fetch_config_kv.  Theorems in `ConsulProps.lean`: `C159_value_partial`, `C159_freed_violated`.

Proved. Violated with the debugging log on: the key is read after it was freed. Missing: URLs longer than 1023 bytes.

### C160 Messages sent over AMQP are published once and in order (partial)

Code: src/modules/mtev_amqp.c: mtev_amqp_send_function, mtev_amqp_send_data_function, copy_envelope, drain_outbound_queue, handleconn, rabbitmq_manage_connection, init_conns.  Theorems in `AmqpProps.lean`: `C160_safe`, `C160_order`, `C160_complete`, `C160_freed`, `C160_drains`, `C160_retry`, `C160_id_violated`.

Proved for one connection or more and ids of connections that are there. Violated otherwise: an id of 128 or more writes outside an array, smaller ones lose the message without freeing it. Missing: the copying of the envelope's properties, and messages the broker took though the library reported a failure.

### C161 Log streams to message brokers go where their path says (partial)

Code: src/modules/mtev_amqp.c: amqp_logio_write; src/modules/mtev_fq.c: fq_logio_write.  Theorems in `AmqpProps.lean`: `C161_split_partial`, `C161_plain_partial`, `C161_fits`, `C161_long_violated`.

Proved for names that fit in 126 bytes. Violated: longer ones are cut, so that different streams send under one key.

### C162 Sends and polls of fq are counted and complete (partial)

Code: src/modules/mtev_fq.c: mtev_fq_send_function, poll_fq, fq_driver_init.  Theorems in `AmqpProps.lean`: `C162_counts`, `C162_poll`, `C162_history`, `C162_fanout_violated`, `C162_fanout_partial`.

Proved for sends and polls one after the other. Violated: with a fanout two threads count receptions without a guard and lose counts. Missing: the client library.

### C163 Sockets of curl requests are watched as curl asks (partial)

Code: src/utils/mtev_curl.c: eventer_curl_handle_socket, eventer_curl_perform, curl_context_deref; src/eventer/eventer_epoll_impl.c: eventer_epoll_impl_trigger, eventer_epoll_impl_remove_fd.  Theorems in `CurlEvProps.lean`: `C163_safe`, `C163_watched_partial`, `C163_reuse_violated`, `C163_contexts`, `C163_events_violated`.

Safety, and that contexts are freed, are proved in full. What is watched is proved unless curl gives up a socket in its own callback and gets the same number again in it: then the kernel watches the new socket with the mask of the old one. Violated too: events of sockets given up are never freed.

### C164 Timeouts of curl requests fire as curl asks (partial)

Code: src/utils/mtev_curl.c: eventer_curl_start_timeout, eventer_curl_on_timeout; src/eventer/eventer_impl.c: eventer_remove_timed.  Theorems in `CurlEvProps.lean`: `C164_kept`, `C164_live`, `C164_live_inside`, `C164_once`, `C164_only_partial`, `C164_stale_violated`, `C164_forgotten_violated`.

That the timeout asked for last is pending, and that the one remembered was not freed, are proved in full. Violated: earlier timeouts stay pending beside it, and one asked for while a timer fires cannot be taken back.

### C165 Buffers and numbers are random throughout (partial)

Code: src/utils/mtev_rand.c: mtev_rand, mtev_rand_trysecure, mtev_rand_buf, mtev_rand_buf_secure, mtev_rand_buf_trysecure.  Theorems in `RandProps.lean`: `C165_fill_partial`, `C165_endless_violated`, `C165_secure_partial`, `C165_secure_violated`, `C165_bits`, `C165_trysecure`, `C165_seed`, `C165_range_violated`.

Proved for buffers up to 2^32 - 8 bytes, and below 2^31 bytes for the secure variant. Violated: larger ones are filled without end; the secure variant returns success for a multiple of 2^32 and writes nothing; mtev_rand returns at most one in 65,536 of the numbers. Missing: the quality of the library's generator.

### C166 Maybe buffers are arrays that grow (partial)

Code: src/utils/mtev_maybe_alloc.h: MTEV_MAYBE_DECL, MTEV_MAYBE_REALLOC, MTEV_MAYBE_FREE, MTEV_MAYBE_SIZE.  Theorems in `SmallBufProps.lean`: `C166_array_partial`, `C166_freed_partial`, `C166_stack`, `C166_overflow_violated`.

Proved for requests below 2^64 bytes. Violated: the product of count and element size wraps, so that a huge request gets no room. Missing: running out of memory, which the macros do not look at.

### C167 JSON is printed whole whatever its size (partial)

Code: src/json-lib/mtev_json_printbuf.c: jl_printbuf_new, jl_printbuf_memappend, jl_sprintbuf, jl_printbuf_reset.  Theorems in `SmallBufProps.lean`: `C167_text_partial`, `C167_reset`, `C167_nomem`, `C167_nomem_violated`, `C167_overflow_violated`.

Proved for texts below 2^30 bytes with memory available. Violated: at 2^30 bytes an int overflows; and formatted output reports success when there was no memory, so that the text goes on without the piece.

### C168 JSON documents go to files and come back whole (partial)

Code: src/json-lib/mtev_json_util.c: mtev_json_object_from_fd, mtev_json_object_to_fd.  Theorems in `JsonFileProps.lean`: `C168_read_partial`, `C168_error`, `C168_empty_violated`, `C168_nul_violated`, `C168_written`, `C168_succeeds`, `C168_roundtrip`.

Writing, and failed reads, are proved in full. Reading is proved for files that are not empty, have no NUL and are below 2^30 bytes. Violated: for an empty file memory never written is parsed; what follows a NUL is not looked at. Missing: running out of memory while reading.

### C169 Spans published reach the Jaeger collector (partial)

Code: src/modules/zipkin_jaeger.c: todo_enqueue, todo_dequeue, zipkin_jaeger_queue, jaeger_publish_thrift, zipking_jaeger_submitter.  Theorems in `JaegerProps.lean`: `C169_order_partial`, `C169_prefix`, `C169_bounds`, `C169_stops_violated`, `C169_once`, `C169_success`, `C169_retries_violated`.

Order, batches and references are proved in full. That spans are taken is proved for the first so many as the backlog. Violated: after that none is taken ever again, because the counter of the queue is never lowered; and with retries configured a failing collector is asked without end. Missing: the encoding of the batch (see the claims on spans) and curl.

### C170 The capabilities document lists every service (partial)

Code: src/mtev_capabilities_listener.c: mtev_capabilities_tobuff_json, mtev_capabilities_add_feature, mtev_capabilities_handler; src/json-lib/mtev_json_object.c: mtev_json_object_object_add.  Theorems in `CapaProps.lean`: `C170_listed_partial`, `C170_commands`, `C170_collision_violated`, `C170_feature`, `C170_delivered`, `C170_closes`.

Commands, features and the delivery are proved in full. That services are listed is proved for addresses of 32 bits. Violated: longer addresses are cut to eight digits, so that of two services whose functions lie in the same 64 KiB one replaces the other. Missing: the other parts of the document and its XML form.

### C171 The listing of events shows what they wait for (partial)

Code: src/mtev_events_rest.c: json_spit_event.  Theorems in `EvRestProps.lean`: `C171_local`, `C171_remote_partial`, `C171_remote_violated`, `C171_timer`.

Descriptors, masks, local addresses and timers are proved in full, peers for IPv4. Violated: a peer of IPv6 is shown as the IPv4 address its first four bytes make. Missing: the names of callbacks, pools and implementations.

## Axioms of each theorem

Output of `#print axioms`, grouped.

* none: C03_html_encode_len_violated, C101_null_violated, C103_none, C113_add_violated, C114_bare_violated, C129_refused_violated, C132_duration_violated, C134_null_violated, C139_pause_violated, C139_setup_violated, C141_interrupt_violated, C152_nameless_violated, C152_twice_violated, C154_step_violated, C158_ref_violated, C162_fanout_violated, C42_strlcpy_violated, C68_masks_agree.
* `Classical.choice`, `Quot.sound`, `propext`: C01_url_decode_exact, C02_url_decode_bounds, C02_url_encode_bounds_partial, C02_url_encode_in_place, C02_url_encode_len_suffices, C03_html_encode_escapes, C03_html_encode_len_partial, C03_html_encode_no_markup, C04_b32_encode_rfc4648, C04_b32_roundtrip, C05_b32_decode_bounds_partial, C05_b32_decode_overflow_violated, C06_b64_decode_lenient, C06_b64_encode_rfc4648, C06_b64_roundtrip, C06_b64_uninitialised_read, C07_b64_decode_bounds, C08_uuid_case_insensitive, C08_uuid_parse_iff, C08_uuid_parse_in_bounds, C08_uuid_roundtrip, C09_strnstrn_256, C09_strnstrn_first_partial, C09_strnstrn_violated, C100_args, C100_cut_violated, C100_env_partial, C100_environment_violated, C100_override_violated, C100_path_violated, C100_skipped, C101_command_partial, C101_cut_violated, C101_left_partial, C101_name, C102_hash_partial, C102_late_violated, C102_nested_violated, C102_own, C102_returns_partial, C102_ring_violated, C103_bad_regex, C103_leftover_violated, C103_negation_off_violated, C103_negation_violated, C103_off_partial, C103_regex_violated, C103_unset_violated, C104_braces_violated, C104_cut_violated, C104_endless_violated, C104_filled_partial, C104_one_result, C104_overread_violated, C104_rescan_violated, C104_skipped_violated, C104_untouched, C105_default_violated, C105_form_partial, C105_hash_violated, C105_name_violated, C105_only, C105_string_partial, C106_absent, C106_bases_violated, C106_roundtrip, C107_roundtrip, C107_true, C108_exclusive_partial, C108_free_partial, C108_nested_partial, C108_progress_partial, C108_release_partial, C108_upgrade_partial, C109_atomic_partial, C109_history_partial, C10_append_partial, C10_prepend_partial, C110_attrs_partial, C110_kept_partial, C111_end_violated, C111_length_partial, C111_text_partial, C113_apart_partial, C113_empty_violated, C113_load, C113_together_partial, C113_write_partial, C114_one_partial, C116_count_violated, C116_init_violated, C116_length_violated, C116_negative_violated, C116_order, C116_repeat, C116_roundtrip_partial, C116_types, C116_word_violated, C117_arshift, C117_band, C117_bnot, C117_bor, C117_bswap, C117_bxor, C117_lshift, C117_rol_partial, C117_rol_violated, C117_ror_partial, C117_rshift, C117_tobit, C117_tohex_partial, C119_can_partial, C119_file_violated, C119_ok_partial, C119_only_partial, C119_top_violated, C11_dyn_buffer_contents_partial, C11_dyn_buffer_detach, C11_dyn_buffer_maybe, C11_dyn_buffer_printf_violated, C11_dyn_buffer_terminated, C11_dyn_buffer_violation_reachable, C120_ambiguous, C120_exact, C120_letters, C120_question, C120_unique, C120_unknown, C121_all_partial, C121_common, C121_first_violated, C122_apply_partial, C122_long_violated, C122_replace_partial, C122_safe, C122_same_partial, C123_down, C123_ip, C123_limit_violated, C123_refused_partial, C123_up_partial, C124_at_partial, C124_exact_violated, C124_last_violated, C124_near_partial, C124_single_violated, C124_wrong_violated, C125_exact, C125_name_partial, C125_roundtrip, C126_format_partial, C126_long_violated, C126_safe_partial, C127_alone_violated, C127_back, C127_drop, C127_effective, C127_groups_violated, C127_number_violated, C127_root_partial, C127_same_violated, C127_unknown, C128_bounds, C128_shared_partial, C128_stream_partial, C128_sub_violated, C129_agree, C129_counter, C129_ends, C12_merge_sort_perm, C12_merge_sort_sorts, C130_encode_partial, C130_half_violated, C130_length, C130_list_partial, C130_publish_partial, C130_publish_violated, C131_debug, C131_sampling, C133_case, C133_debug, C133_digits_partial, C133_junk_violated, C133_long_violated, C133_propagate, C133_refused, C133_roundtrip, C134_alive, C134_counted_partial, C134_once, C134_published_partial, C134_safe_partial, C135_enter, C135_last, C135_no_hang, C135_released, C135_safe_partial, C135_wait, C137_abort_lost_violated, C137_abort_violated, C137_double_violated, C137_exact_partial, C137_flush, C137_kept_partial, C137_lines, C137_overflow_telnet_violated, C137_plain, C137_safe_partial, C137_text, C138_abbreviation_violated, C138_nothing, C138_offered_partial, C138_only, C138_press_partial, C138_quote_violated, C138_shorter_violated, C139_plain_partial, C139_returns_partial, C13_hll_alloc, C13_hll_registers, C13_hll_set_semantics, C13_hll_sums_antitone, C13_hll_union, C141_each, C142_name_partial, C142_other_violated, C142_slash_violated, C144_address_partial, C144_closed, C144_kept_partial, C144_path_violated, C144_removed_violated, C144_starts, C144_success, C145_settings_partial, C145_started, C145_tls_violated, C147_bad_body_violated, C147_early_violated, C147_pipelined_violated, C147_smuggled_violated, C148_blocked_violated, C148_case_violated, C148_ended, C148_long_violated, C148_message_violated, C148_only_partial, C148_overrun_violated, C148_ready_partial, C148_request_partial, C148_split_violated, C148_status_violated, C14_duration_exact_partial, C14_duration_iff, C14_duration_overflow_violated, C14_duration_units, C150_delete_violated, C150_hang_violated, C150_pointer_violated, C150_stored_partial, C151_deadlock_violated, C151_released_partial, C151_self_violated, C152_config_violated, C152_init_violated, C152_once, C152_onload_violated, C152_reported_partial, C153_first_partial, C154_close, C154_outliers, C155_kept_partial, C155_live_violated, C155_row_partial, C155_wrap_violated, C155_zero_violated, C156_bad_violated, C156_many_violated, C156_rows_partial, C157_timeout_violated, C158_health, C158_long_violated, C158_name_partial, C158_push_partial, C158_pushes_violated, C159_freed_violated, C159_value_partial, C15_time_gm_only_stamps, C15_time_gm_partial, C15_time_gm_violated, C160_complete, C160_drains, C160_freed, C160_order, C160_safe, C161_fits, C161_long_violated, C161_plain_partial, C161_split_partial, C162_counts, C162_history, C162_poll, C164_stale_violated, C165_range_violated, C165_secure_violated, C167_overflow_violated, C167_reset, C167_text_partial, C168_error, C168_nul_violated, C168_read_partial, C168_roundtrip, C168_succeeds, C168_written, C169_once, C169_retries_violated, C169_success, C16_duplicate_violated, C16_lookup_distinct, C16_ring_order_partial, C170_collision_violated, C170_commands, C170_delivered, C170_feature, C170_listed_partial, C171_remote_violated, C17_delete_covering_violated, C17_longest_match_partial, C18_exact_partial, C18_freed_exactly_once, C18_get_returns_last_put, C18_never_over_limit, C18_replace_crash_violated, C19_exact, C19_freed_exactly_once, C19_get_returns_last_put, C19_never_over_limit, C20_find, C20_ordered_set, C21_get_linearizable, C21_get_only_stored, C21_hits_le_accesses, C21_set_get_alone, C21_set_linearizable, C21_within_table, C22_accept_iff_reserved, C22_counter_exact, C22_lower_alone, C22_no_abort, C22_no_lost_wakeup, C22_raise_alone, C22_single_owner, C22_toggles_alternate, C23_exclusion, C23_uncontended, C23_word_returns_to_zero, C24_no_lost_wakeup, C24_permits_conserved, C24_value_exact, C25_count, C25_equal_iff, C25_handle_stands_for_bytes, C25_in_use_not_reclaimed, C25_length_partial, C25_long_key_violated, C25_nothing_leaks, C25_removed_once, C25_safe, C25_string_key, C26_alloc_new_piece, C26_compaction_keeps, C26_compaction_maximal, C26_concurrent_bases, C26_concurrent_every_byte, C26_concurrent_no_overlap, C26_concurrent_safe, C26_every_byte_accounted, C26_four_gib_violated, C26_no_overlap, C26_odd_extent_violated, C26_records_partial, C26_safe_partial, C27_edges, C27_round_down, C27_round_up, C28_map, C28_merge_partial, C28_merge_violated, C28_objects, C29_exponent_violated, C29_formula, C29_has_predicate, C29_int_compare, C29_ne_violated, C29_string_compare, C29_string_order, C30_dequeue_returns_partial, C30_exactly_once_partial, C30_fifo_partial, C30_no_freed_subqueue_partial, C30_no_lost_wakeup_partial, C30_no_starvation_partial, C30_nothing_left_behind_partial, C30_order_partial, C31_backlog_exact, C31_backlog_limit, C31_refused_not_queued, C32_all_delivered, C32_at_most_once, C32_memory_safe, C32_only_when_all_finished, C33_any_stream_safe_partial, C33_bad_size_line, C33_buffered_bytes_withheld_violated, C33_chunked_body_partial, C33_chunked_progress_partial, C33_complete_flag, C33_empty_size_line_violated, C33_extensions_violated, C33_long_size_line_violated, C33_missing_line_end, C33_size_overflow_violated, C33_size_skipped_violated, C33_trailers_violated, C33_truncated_never_done_partial, C34_append_accepted_partial, C34_chunked_in_progress_partial, C34_chunked_response_partial, C34_completes_partial, C34_content_length_cut_violated, C34_round_trip_partial, C34_two_gib_violated, C34_verbatim_response_partial, C35_false_end_violated, C35_malformed_refused_partial, C35_nul_hides_headers_violated, C35_pipelined_partial, C35_request_parsed_partial, C35_split_end_violated, C35_split_header_violated, C35_split_independent_partial, C35_split_last_header_violated, C35_split_request_line_violated, C36_decoding_unique, C36_in_place, C36_never_grows, C36_nul_truncates, C37_acl_type_violated, C37_allowed_needs_rule, C37_bad_network_violated, C37_bad_pattern_violated, C37_first_match_partial, C37_long_pattern_violated, C37_many_groups_violated, C37_other_family_violated, C37_skipto_earlier_violated, C37_skipto_violated, C38_defined_partial, C38_invoke_partial, C38_registered_stays_partial, C39_string_roundtrip, C40_blank_first_violated, C40_empty_piece_violated, C40_no_undefined, C40_nul_violated, C40_trailing_comment_violated, C41_all_due, C41_dispatch, C41_exactly_once, C41_in_order, C41_not_early, C41_pending_once, C41_remove, C41_safe, C41_sleep, C42_strlcat_partial, C42_strlcpy_partial, C43_line_numbers_violated, C43_lines_since_partial, C43_memory_lines_violated, C43_small_lines, C43_write_safe, C45_merge_sort_reverses_ties_partial, C45_merge_sort_stable_violated, C46_boolean_iff, C47_strndup, C48_to_string_terminated_partial, C48_to_string_violated, C49_atomic_partial, C51_unbounded_lru_partial, C51_unbounded_replace_violated, C52_values_returned_partial, C53_deferred_safe, C53_freed_once, C53_immediate_free_violated, C54_layout, C55_empty_pieces_ignored, C55_query_roundtrip, C56_delete_partial, C57_neighbors, C58_add_index_partial, C59_share_partial, C60_fixed_length_body, C60_fixed_length_progress, C61_bad_length_violated, C61_body_framing_partial, C61_chunked_spelling_violated, C62_alloc_answered_partial, C62_alloc_never_returns_violated, C63_dispatch_partial, C63_expected_unique, C63_many_groups_violated, C63_options_partial, C63_requests_independent_partial, C63_stale_handler_violated, C63_websocket_auth_violated, C63_websocket_memo_violated, C63_websocket_partial, C64_accepts_partial, C64_big_integer_violated, C64_formfeed_violated, C64_lax_violated, C64_nul_violated, C64_scalar_violated, C64_surrogates_violated, C64_upper_exponent_violated, C64_upper_hex_violated, C65_print_parse_partial, C66_exponent_violated, C66_meaning_partial, C66_no_tree_violated, C66_nul_violated, C66_parse_partial, C66_pattern_violated, C66_space_before_comma_violated, C66_trailing_violated, C67_callbacks_exclude, C67_idle_unlocked, C67_no_self_deadlock, C68_interest, C68_interest_in_callback, C68_no_abort_partial, C68_runs_in_owner, C68_started_by_owner, C69_array, C69_lookup_never_ends_violated, C69_negative_index_violated, C69_object_partial, C69_present_returns, C69_returns_partial, C70_delivers_partial, C70_indeterminate_violated, C70_stale_violated, C70_stays_in_buffers, C70_stuck_violated, C71_count_violated, C71_payload_partial, C71_where, C72_dead_oldest_violated, C72_learns, C72_oldest_is_oldest_partial, C72_oldest_known_partial, C72_one_oldest, C72_silence, C72_told, C73_cap_violated, C73_first_owner_partial, C73_owners_partial, C74_large_violated, C74_oneshot_partial, C74_stream_partial, C75_call, C75_flush, C75_growth, C75_growth_oneshot, C75_http_gzip, C75_oneshot_partial, C76_check_exact, C76_domain, C76_issue_failed, C76_login_blank_violated, C76_login_form, C76_long_user_violated, C76_no_cookie, C76_redirect, C76_roundtrip_partial, C76_stamp, C76_unforgeable, C77_head_partial, C77_injection_violated, C77_long_reason_violated, C77_refused_encoding_violated, C78_complete, C78_debug_violated, C78_end_to_end_partial, C78_hostile_peer, C78_reconnect_partial, C78_reconnect_violated, C78_reuse_violated, C79_cn_partial, C79_cn_violated, C79_evict_violated, C79_granted, C79_hang_violated, C79_registered_partial, C80_bounds, C80_doubling, C81_readers_partial, C82_defined_partial, C83_double_free, C83_handshake_violated, C83_kept_partial, C83_once, C83_open_section_violated, C84_asynch_partial, C84_barrier_partial, C84_collector_violated, C84_returned, C84_try_violated, C85_confined_partial, C85_defined_partial, C85_dot_violated, C85_index_partial, C85_missing, C85_refused_partial, C85_served_partial, C85_sibling_violated, C85_trailing_slash_violated, C85_type_partial, C85_type_violated, C86_in_place, C86_leading_blank_violated, C86_missing_quote_partial, C86_missing_quote_violated, C86_room, C86_round_trip, C86_words, C87_hidden_attribute_violated, C87_late_type_violated, C87_on_fd_violated, C87_returns_partial, C87_span_violated, C88_place_partial, C88_place_violated, C88_result_violated, C88_room, C88_signal_partial, C88_signal_violated, C88_split, C88_timestamp, C88_whole, C89_asynch_partial, C89_once_partial, C89_one_writer, C89_synch_partial, C90_complete, C90_ignore_dates_violated, C90_message_violated, C90_no_certificate_violated, C90_sound_partial, C90_switches, C91_common_name_partial, C91_common_name_violated, C91_names_partial, C91_room, C91_stale_violated, C91_subject, C91_zero_violated, C92_ca_file_violated, C92_context_partial, C92_files_partial, C92_inline_violated, C92_joined_violated, C92_no_certificate_violated, C92_one_change, C92_settings, C92_shared_crl_violated, C93_default, C93_documented_default_violated, C93_long_violated, C93_protocol_violated, C93_versions_partial, C94_advertise, C94_always_violated, C94_h2_partial, C94_http11_violated, C94_known, C94_next_violated, C94_offered, C94_unadvertised_violated, C94_unknown_violated, C95_around_1970_violated, C95_calendar, C95_dates_partial, C95_format, C95_no_such_day_violated, C96_gives_up, C96_limit_partial, C96_one_violated, C97_decision, C97_reason, C98_never_violated, C98_silent_partial, C99_back_partial, C99_clean_partial, C99_one_partial, C99_pause, C99_term_partial.
* `Quot.sound`, `propext`: C01_url_encode_alphabet, C01_url_encode_injective, C01_url_roundtrip, C02_url_encode_overflow_violated, C03_html_encode_bounds, C04_b32_decode_case_insensitive, C09_strnstrn_extremes, C101_limit_partial, C102_attribute, C106_bases32_partial, C106_decimal32_partial, C106_decimal64, C106_junk_violated, C106_negative_violated, C106_range_violated, C111_long_violated, C112_all_partial, C112_failed, C112_mixed_violated, C112_old_or_new, C112_success, C112_twice_violated, C112_unreported_violated, C112_untouched, C113_add_partial, C115_change_partial, C115_clock_violated, C115_flush_partial, C115_history_partial, C115_mess_violated, C115_quiet, C115_remove_partial, C115_retry_violated, C116_safe_partial, C117_tohex_violated, C118_exclusive_partial, C118_free_partial, C119_long_violated, C120_first, C123_digits_violated, C123_step, C124_none, C125_name_violated, C125_parse, C125_zone_name, C126_offset_partial, C128_ignored, C128_lines_partial, C128_mapped, C128_portions_partial, C128_portions_violated, C128_return, C128_shared_violated, C129_off, C129_only, C129_repeat, C129_request, C131_child, C131_root, C132_duration_partial, C132_start, C132_within, C134_callback, C134_inherit, C136_at_once, C136_clean, C136_default, C136_result_partial, C136_safe, C136_sleep_violated, C136_sleeps, C136_timeout_partial, C136_times_out, C136_waits, C136_woken, C137_option_violated, C137_overflow_violated, C140_active_partial, C140_handshake_violated, C140_idle_partial, C140_race_violated, C140_write_violated, C141_owner_partial, C142_anonymous, C143_command_partial, C143_end, C143_handler, C143_split_violated, C146_long_violated, C146_room, C146_text_partial, C147_order_partial, C147_served_partial, C150_map_partial, C151_walk, C152_off, C152_order, C153_absolute, C153_long_violated, C153_symbol, C154_day, C154_day_system, C154_desync, C154_monotone_partial, C155_ids, C155_note, C155_race_violated, C157_spacing, C157_told, C158_stops, C158_unknown, C160_id_violated, C162_fanout_partial, C163_contexts, C163_events_violated, C163_safe, C163_watched_partial, C164_forgotten_violated, C164_kept, C164_live_inside, C164_once, C164_only_partial, C165_bits, C165_endless_violated, C165_fill_partial, C165_secure_partial, C166_array_partial, C166_freed_partial, C166_overflow_violated, C166_stack, C167_nomem, C167_nomem_violated, C169_bounds, C169_order_partial, C169_prefix, C169_stops_violated, C16_empty, C16_trim, C170_closes, C171_timer, C18_premature_eviction_violated, C19_disabled, C24_take_uses_one, C24_wait_returns_with_permit, C25_blob_key, C25_string_or_blob_violated, C25_unterminated_violated, C29_bad_pattern_violated, C29_huge_strings_violated, C29_long_value_violated, C29_missing, C29_number_ops_agree, C29_only_mentioned, C29_regex_number_violated, C29_truth, C31_accepted_within_limit, C31_refused_only_when_full, C36_inverts_encoding, C38_exists, C38_lost_registration_violated, C40_first_answer_partial, C40_pieces_partial, C41_stale_clock_violated, C41_update_race_violated, C42_strlcat_violated, C43_stuck_violated, C44_uuid_generate_v4, C50_heavy_progress, C52_leak_violated, C54_unaligned_violated, C55_keys_nodup, C55_no_query, C67_deadlock_violated, C68_removed_once, C68_stale_report_violated, C69_members, C70_fits, C70_round_trip, C70_sends, C71_absent_violated, C71_attach, C71_invented_violated, C71_message_partial, C72_milliseconds, C72_unknown, C73_agree, C73_newest, C76_domain_none, C79_request, C79_too_long, C80_intervals_partial, C82_address_reuse_violated, C82_first_use_in_coroutine_violated, C86_quotable, C87_asking_partial, C87_cycle_violated, C87_repaired, C87_routed_partial, C94_advertise_all, C96_config, C96_crash_violated, C97_dead_first_partial, C97_overlap_partial, C97_starts, C98_create_partial, C98_found, C98_front, C99_at_once, C99_term_stopped_violated.
* `propext`: C06_b64_encode_refuses, C101_limit_violated, C108_number_violated, C108_zero_violated, C109_leftover_violated, C109_short_violated, C109_succeeds, C110_attrs_violated, C110_lost_violated, C110_once_partial, C110_twice_violated, C113_front_violated, C113_inner_violated, C114_ring_violated, C118_crash, C118_exclusive_violated, C118_fail, C118_noowner_violated, C118_owner_partial, C118_owner_violated, C123_mask_violated, C123_overflow_violated, C126_offset_violated, C131_always, C131_first, C131_force, C131_given, C131_zero_violated, C134_attach_violated, C134_copy_violated, C134_crash_violated, C135_leak_violated, C135_shared_violated, C135_try_pending_violated, C135_try_violated, C139_complete, C139_in_order, C139_plain_violated, C139_stall_violated, C139_trailing_violated, C141_all, C141_pool_violated, C149_callback_partial, C149_closed_violated, C149_inside_violated, C149_leak_violated, C149_noref, C149_released_partial, C149_send_violated, C150_iterating_violated, C150_pointer_partial, C154_backwards_violated, C154_cpus_violated, C154_maintain_partial, C154_maintain_violated, C157_big_violated, C157_current_partial, C157_detach_partial, C157_detach_violated, C158_state, C160_retry, C163_reuse_violated, C164_live, C165_seed, C165_trysecure, C168_empty_violated, C16_bits31_violated, C16_unsorted_violated, C171_local, C171_remote_partial, C17_stack_overflow_violated, C23_downgrade, C26_record_twice_violated, C30_mode_change_loses_jobs_violated, C31_plain_enqueue_is_unlimited, C32_completion_order_remark, C43_garbage_violated, C43_no_slots_violated, C43_reader_overrun_violated, C49_rtoa_violated, C50_heavy_exclusion, C56_phantom_delete_violated, C58_lost_elements_violated, C58_second_index_violated, C64_depth_violated, C68_removed_by_other_violated, C68_replaced_violated, C70_composes, C71_wrong_bytes_violated, C72_clash_violated, C74_flush_once, C74_nothing_violated, C75_http_deflate_violated, C75_oneshot_violated, C79_ends_partial, C80_limits_violated, C80_reset_violated, C89_full_disk_violated, C89_left_behind_violated, C89_order_violated, C89_race_violated, C89_short_write_violated, C94_off, C96_hang_violated, C97_deaf_violated, C97_three_violated, C98_disabled, C98_enable_all_violated, C98_enable_violated, C98_limit, C98_look, C98_shared_violated, C99_others_violated, C99_stopped_violated, C99_term_violated.
