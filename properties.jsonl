{"id": "C01", "title": "URL encoding round trips", "statement": "For every byte string s, decoding the output of mtev_url_encode(s) with mtev_url_decode gives back exactly s, with the lengths the API reports; and the encoded text contains only unreserved characters and %XX escapes.", "quantifier": "all byte strings of all lengths, all sufficient destination sizes", "why_tests_cant": "the input space of byte strings is unbounded and every byte class interacts with its neighbours ('%', '+', high bytes)", "anchors": ["src/utils/mtev_url.c: mtev_url_encode, mtev_url_decode, isallowed"]}
{"id": "C02", "title": "URL encoder stays inside its buffer", "statement": "mtev_url_encode never writes outside the dest_len bytes it was given, and refuses (returns 0) when the destination is smaller than mtev_url_max_encode_len requires.", "quantifier": "all inputs and all destination sizes", "why_tests_cant": "a one byte overrun happens only for particular (content, dest_len) pairs; sampling cannot exclude it", "anchors": ["src/utils/mtev_url.c: mtev_url_encode, mtev_url_max_encode_len"]}
{"id": "C03", "title": "HTML escaping is safe and sized by its own length function", "statement": "The text produced by mtev_html_encode contains no raw '<', '>', '\"', '&' (except as the start of an entity it wrote) or apostrophe, it is NUL terminated inside the buffer, and a buffer of mtev_html_encode_len(n) bytes always suffices for n input bytes.", "quantifier": "all byte strings, all destination sizes", "why_tests_cant": "the worst case expansion and the boundary tests depend on the whole content of the input", "anchors": ["src/utils/mtev_url.c: mtev_html_encode, mtev_html_encode_len"]}
{"id": "C04", "title": "Base32 round trips", "statement": "For every byte string s, mtev_b32_decode of the output of mtev_b32_encode(s) is s, for every tail length mod 5, and inserting white space or '-' anywhere between encoded characters does not change the result.", "quantifier": "all byte strings, all placements of skipped characters", "why_tests_cant": "unbounded inputs, five tail classes, arbitrary separators", "anchors": ["src/utils/mtev_b32.c: mtev_b32_encode, mtev_b32_decode, mtev_b32_encode_len"]}
{"id": "C05", "title": "Base32 decoding never writes past its destination", "statement": "For any input text, mtev_b32_decode either returns 0 or writes no byte at or past dest_len.", "quantifier": "all input texts (well-formed or hostile) and all dest_len", "why_tests_cant": "hostile texts are unbounded and overrun depends on the interplay of padding, white space and length guard", "anchors": ["src/utils/mtev_b32.c: mtev_b32_decode"]}
{"id": "C06", "title": "Base64 round trips", "statement": "For every byte string s, mtev_b64_decode of mtev_b64_encode(s) is s; the lenient decoder also accepts the URL-safe alphabet and embedded white space with the same result.", "quantifier": "all byte strings, all white space placements", "why_tests_cant": "unbounded inputs, three tail classes, two alphabets", "anchors": ["src/utils/mtev_b64.c: mtev_b64_encode, mtev_b64_decode"]}
{"id": "C07", "title": "Base64 decoding never writes past its destination", "statement": "For any input text, mtev_b64_decode either returns 0 or writes only bytes inside dest_len.", "quantifier": "all input texts and all dest_len", "why_tests_cant": "hostile texts are unbounded", "anchors": ["src/utils/mtev_b64.c: mtev_b64_decode"]}
{"id": "C08", "title": "UUID text form is faithful", "statement": "mtev_uuid_parse of the text mtev_uuid_unparse_lower (or upper) writes gives the same 16 bytes; mtev_uuid_parse accepts a 36-character text exactly when it is hex digits with dashes at 8, 13, 18 and 23, and two accepted texts denote the same UUID exactly when they agree up to letter case.", "quantifier": "all 2^128 UUIDs, all 36-character texts", "why_tests_cant": "the domain is far too large to enumerate", "anchors": ["src/utils/mtev_uuid_parse.c: mtev_uuid_parse, mtev_uuid_unparse_lower, mtev_uuid_unparse_upper"]}
{"id": "C09", "title": "strnstrn finds the first occurrence", "statement": "strnstrn(needle, haystack) returns a pointer to the first occurrence of needle in the haystack, and NULL exactly when there is none, without ever reading outside the two given ranges.", "quantifier": "all needles and haystacks of any length", "why_tests_cant": "KMP failure function errors appear only for self-overlapping needles in particular texts", "anchors": ["src/utils/mtev_str.c: strnstrn, kmp_precompute"]}
{"id": "C10", "title": "Growable string buffers keep their content", "statement": "Any sequence of prepend and append operations on mtev_prependable_str_buff / mtev_str_buff yields exactly the concatenation of the pieces in the order implied by the operations, at every growth boundary.", "quantifier": "all operation histories and all piece sizes", "why_tests_cant": "reallocation boundaries depend on the full history", "anchors": ["src/utils/mtev_str.c: mtev_prepend_str, mtev_append_str_buff, mtev_str_buff_to_string"]}
{"id": "C11", "title": "Dynamic buffers refine byte strings", "statement": "Any sequence of mtev_dyn_buffer operations (init, add, add_printf, ensure, advance, reset, destroy) behaves as operations on a plain byte string: content and used length are the concatenation of everything added, capacity always covers it, and no write is outside the current allocation.", "quantifier": "all operation histories", "why_tests_cant": "growth from the inline buffer to heap and the doubling rule depend on the entire history of sizes", "anchors": ["src/utils/mtev_dyn_buffer.c", "src/utils/mtev_dyn_buffer.h"]}
{"id": "C12", "title": "Linked list merge sort sorts", "statement": "mtev_merge_sort returns a list that is a permutation of the nodes given and is in non-decreasing comparator order, for every list and every total preorder comparator.", "quantifier": "all lists of any length, all comparators that are total preorders", "why_tests_cant": "a lost node or mis-merge appears only at certain lengths and key patterns", "anchors": ["src/utils/mtev_sort.c: mtev_merge_sort"]}
{"id": "C13", "title": "HyperLogLog state depends only on the set of elements", "statement": "The register state of a hyperloglog is the same for any order and any repetition of the added elements, every register stays in range, and merging by taking the union of additions is monotone.", "quantifier": "all finite sequences of hashes, all precisions the constructor accepts", "why_tests_cant": "order/duplication insensitivity is a statement about all permutations", "anchors": ["src/utils/mtev_hyperloglog.c: mtev_hyperloglog_add, mtev_hyperloglog_size"]}
{"id": "C14", "title": "Duration text parses to its arithmetic value", "statement": "mtev_confstr_parse_duration accepts exactly the concatenations of <digits><unit> (with white space) of its grammar and returns the sum of number times unit; anything else is rejected with the output set as documented.", "quantifier": "all texts, all unit tables", "why_tests_cant": "grammar acceptance is over all strings; the sum is unbounded", "anchors": ["src/utils/mtev_confstr.c: mtev_confstr_parse_duration"]}
{"id": "C15", "title": "Time text parses to the right instant", "statement": "mtev_confstr_parse_time_gm accepts exactly the valid proleptic Gregorian dates of its format and yields the POSIX time of that instant, for every year at or after 1970 and every numeric zone offset.", "quantifier": "all calendar dates and offsets", "why_tests_cant": "leap year errors occur on particular years only (e.g. centuries)", "anchors": ["src/utils/mtev_confstr.c: is_valid_date, mtev_timegm, mtev_confstr_parse_time_gm"]}
{"id": "C16", "title": "Consistent hash ring is sorted and lookup follows the ring", "statement": "After building, the ring positions are sorted, and mtev_cht_vlookup_n returns distinct nodes: the owners of the ring points met going round from the arc that contains the key's hash (the last point at or before it), in ring order; it returns as many as asked when that many nodes exist.", "quantifier": "all node sets, weights, hashes and requested widths", "why_tests_cant": "collisions and wrap around are rare, the ring has thousands of points", "anchors": ["src/utils/mtev_cht.c: mtev_cht_set_nodes, mtev_cht_vlookup_n"]}
{"id": "C17", "title": "IP prefix tree answers the longest matching prefix", "statement": "After any sequence of route insertions and deletions, a lookup returns the data of the longest inserted prefix containing the address and its length, and no answer exactly when no prefix contains it.", "quantifier": "all histories of insert/delete over all prefixes and all lookups", "why_tests_cant": "tree shape depends on the insertion order; the address space is 2^128", "anchors": ["src/utils/mtev_btrie.c: add_route, find_bpm_route, del_route"]}
{"id": "C18", "title": "LRU cache is bounded and evicts the least recently used", "statement": "A bounded LRU never holds more than its limit, a put evicts only when full and then the least recently used entry, a get returns the last value put for the key if it has not been evicted or removed, and every value is freed exactly once after its last release.", "quantifier": "all histories of put/get/release/remove/invalidate", "why_tests_cant": "recency and reference counts depend on the full history", "anchors": ["src/utils/mtev_lru.c: mtev_lru_put, mtev_lru_get, mtev_lru_release, mtev_lru_remove"]}
{"id": "C19", "title": "LFU cache is bounded and evicts a least frequently used entry", "statement": "A bounded LFU never holds more than its limit, eviction removes an entry of minimal use count (oldest in that class), get returns the last value put for the key if present, and frequency counts equal the number of accesses since the put.", "quantifier": "all histories of put/get/release/remove/iterate", "why_tests_cant": "frequency bucket list surgery depends on the full history", "anchors": ["src/utils/mtev_lfu.c: mtev_lfu_put, mtev_lfu_get, touch, expire_least_lfu_cache_entry_no_lock"]}
{"id": "C20", "title": "Skip list is an ordered set", "statement": "For every history and every outcome of the random height choices, a skip list contains exactly the elements inserted and not removed, in comparator order, without duplicates (insert of an equal element fails), find returns an element exactly when present, and peek/pop return the minimum.", "quantifier": "all histories and all random choices", "why_tests_cant": "heights are random, so no test sees all the structures", "anchors": ["src/utils/mtev_skiplist.c: mtev_skiplist_insert, mtev_skiplist_find, mtev_skiplist_remove, mtev_skiplist_pop"]}
{"id": "C21", "title": "Fixed-size replacement hash only returns what was stored under the key", "statement": "mtev_frrh_get returns data only if the most recent surviving mtev_frrh_set stored exactly that data under exactly that key; sets never exceed the table; hits never exceed accesses.", "quantifier": "all histories, all hash functions, all replacement dice", "why_tests_cant": "collisions and probabilistic replacement make outcomes depend on hash and random choices", "anchors": ["src/utils/mtev_frrh.c: mtev_frrh_get, mtev_frrh_set"]}
{"id": "C22", "title": "Flow regulator hands out each toggle to exactly one client", "statement": "Under any interleaving of clients calling raise/lower/ack, the work counter equals reservations minus releases, never exceeds the high limit, DISABLE and ENABLE instructions strictly alternate and are each given to exactly one client, and no new toggle is issued until the previous one is acknowledged.", "quantifier": "all thread counts, all interleavings of atomic steps", "why_tests_cant": "schedules are unbounded", "anchors": ["src/utils/mtev_flow_regulator.c"]}
{"id": "C23", "title": "Progressive locks exclude correctly", "statement": "With R/S/W/upgrade operations of the plock header on one word, under any interleaving at most one thread is in S or W, no thread is in R or S while one is in W, and dropping everything returns the word to zero.", "quantifier": "all thread counts below the field overflow bound, all interleavings", "why_tests_cant": "schedules are unbounded and transient counts only appear under races", "anchors": ["src/utils/mtev_plock.h: pl_take_r, pl_take_s, pl_take_w, pl_try_*, pl_stow, pl_wtos, pl_stor, pl_wtor, pl_drop_*"]}
{"id": "C24", "title": "Emulated semaphores conserve permits", "statement": "For the mtev_sem implementation, under any interleaving the count never goes negative and successful waits never exceed initial value plus posts.", "quantifier": "all interleavings of wait/trywait/post", "why_tests_cant": "schedules are unbounded", "anchors": ["src/utils/mtev_sem.c"]}
{"id": "C25", "title": "Interning gives one handle per content", "statement": "While references are held, two intern calls with equal contents in one pool return the same handle and two handles are equal only if their contents are; a handle stays valid until its last release; after the last release the memory is reclaimed exactly once.", "quantifier": "all histories and interleavings of intern, copy, release", "why_tests_cant": "races between the last release and a concurrent lookup are schedule dependent", "anchors": ["src/utils/mtev_intern.c: mtev_intern_internal_ex, mtev_intern_release_pool, mtev_intern_copy"]}
{"id": "C26", "title": "Intern arena never overlaps live strings", "statement": "The interning allocator never hands out overlapping memory: live strings and free fragments are pairwise disjoint and inside allocated extents after any history of allocation, release and compaction; compaction loses no byte.", "quantifier": "all histories of sizes, releases and compactions", "why_tests_cant": "fragmentation patterns are unbounded", "anchors": ["src/utils/mtev_intern.c: borrow_free_node, replace_free_node, mtev_intern_pool_compact"]}
{"id": "C27", "title": "Fast log2 helpers are exact", "statement": "fast_log2_rd(v) is floor(log2 v) for every v>0 and fast_log2_ru(v) is ceil(log2 v) for every v in range.", "quantifier": "all 32-bit values", "why_tests_cant": "2^32 values, the De Bruijn table hides wrong entries", "anchors": ["src/utils/mtev_intern.c: fast_log2_rd, fast_log2_ru"]}
{"id": "C28", "title": "Hash table is a map", "statement": "For any history of store, replace, set, retrieve, delete, merge and iteration, mtev_hash behaves as a finite map keyed by (bytes, length): store never overwrites, replace always does, delete removes, size counts the distinct keys, iteration visits each pair once, callbacks for freed key/data are invoked exactly once per removed or replaced pair.", "quantifier": "all histories, all keys", "why_tests_cant": "histories are unbounded", "anchors": ["src/utils/mtev_hash.c"]}
{"id": "C29", "title": "Logic expressions evaluate as boolean algebra over predicates", "statement": "Executing a parsed mtev_logic expression gives the value of the boolean formula, with and(...), or(...), not(...) read as the boolean connectives, missing left variables making negative comparisons true and all others false, comparison operators consistent (<, <=, =, !=, >=, > agree with one total order per type), and depending only on the variables mentioned.", "quantifier": "all expressions and all variable assignments", "why_tests_cant": "formula space is unbounded", "anchors": ["src/utils/mtev_logic.c: mtev_logic_exec, exec_predicate"]}
{"id": "C30", "title": "Job queue neither loses nor duplicates jobs", "statement": "Every job accepted by a jobq is handed to a consumer exactly once, in FIFO (or LIFO when selected) order within its subqueue, and whenever a job is waiting a dequeue returns one; subqueues are served without starvation.", "quantifier": "all histories of enqueue/dequeue over all subqueues and mode changes", "why_tests_cant": "order and fairness depend on the whole history and the round robin position", "anchors": ["src/eventer/eventer_jobq.c: eventer_jobq_enqueue_internal, eventer_jobq_dequeue_nolock"]}
{"id": "C31", "title": "Job queue backlog limit is never exceeded", "statement": "With a max backlog set, concurrent try_enqueue calls never bring the accounted backlog above the limit and a refused job is not queued.", "quantifier": "all interleavings of enqueuers and consumers", "why_tests_cant": "a race window can only be excluded over all schedules", "anchors": ["src/eventer/eventer_jobq.c: eventer_jobq_try_enqueue"]}
{"id": "C32", "title": "A job completes only after the asynchronous jobs it spawned", "statement": "A job's completion is delivered exactly once and only when the job and all of its dependents have finished.", "quantifier": "all dependency trees and all completion orders/interleavings", "why_tests_cant": "finish orders are unbounded", "anchors": ["src/eventer/eventer_jobq.c: eventer_jobq_queue_completion, eventer_jobq_finished_job"]}
{"id": "C33", "title": "Chunked request bodies decode independently of packetisation", "statement": "For every sequence of chunks and every way of splitting the encoded stream over reads, a chunked HTTP/1.1 request body is delivered as exactly the concatenation of the chunk payloads, ends exactly at the terminal chunk, and malformed framing is reported as an error.", "quantifier": "all payloads, chunkings and read fragmentations", "why_tests_cant": "fragmentation is exponential in length", "anchors": ["src/mtev_http1.c: mtev_http1_session_req_consume_read, mtev_http1_session_req_consume"]}
{"id": "C34", "title": "Chunked responses decode to what was appended", "statement": "Whatever the application appends and flushes with chunked transfer encoding, a conforming client decodes from the wire exactly the appended bytes in order followed by end of body.", "quantifier": "all sequences of appends and flushes", "why_tests_cant": "sizes decide the hex length and the header back-fill position", "anchors": ["src/mtev_http_private.h: mtev_http_process_output_bchain", "src/mtev_http1.c: mtev_http1_response_flush"]}
{"id": "C35", "title": "Header lines spanning receive buffers parse the same", "statement": "The header table obtained from a request does not depend on how the bytes are split over receive buffers.", "quantifier": "all header texts and all buffer splits", "why_tests_cant": "a corrupted line only shows when it straddles a buffer boundary", "anchors": ["src/mtev_http1.c: _fixup_bchain, mtev_http_request_finalize_headers"]}
{"id": "C36", "title": "Query string decoding is exact and in place", "statement": "In-place decoding of query keys and values maps %XX to the byte, '+' to space, leaves malformed escapes untouched, never grows the string and inverts standard form encoding.", "quantifier": "all strings", "why_tests_cant": "interaction of malformed escapes at the end of the string", "anchors": ["src/mtev_http_private.h: inplace_urldecode"]}
{"id": "C37", "title": "REST ACLs decide by first match and deny by default", "statement": "A request is allowed exactly when the first ACL whose conditions match, and within it the first matching rule, says so; with no matching ACL it is denied; rules after a skipto are evaluated from its target.", "quantifier": "all rule sets and all requests", "why_tests_cant": "rule sets are unbounded", "anchors": ["src/mtev_rest.c: mtev_http_rest_client_cert_auth, mtev_http_rest_load_rules"]}
{"id": "C38", "title": "Hook chains run newest first and stop on abort", "statement": "Invoking a hook calls registered functions in reverse registration order, stops at the first ABORT, returns DONE if some hook said DONE and none aborted before, CONTINUE otherwise; every registered function stays registered under concurrent registration.", "quantifier": "all registration histories, results and interleavings", "why_tests_cant": "chain contents and races are unbounded", "anchors": ["src/utils/mtev_hooks.h: MTEV_HOOK_IMPL"]}
{"id": "C39", "title": "JSON strings round trip", "statement": "Serialising any NUL free byte string as a JSON string and parsing it gives the same bytes.", "quantifier": "all NUL-free byte strings", "why_tests_cant": "escape interactions over unbounded strings", "anchors": ["src/json-lib/mtev_json_object.c: mtev_json_escape_str", "src/json-lib/mtev_json_tokener.c: mtev_json_tokener_parse_ex"]}
{"id": "C40", "title": "JSON parsing is independent of input fragmentation", "statement": "Feeding a JSON text to the tokener in any pieces gives the same tree or error as feeding it at once.", "quantifier": "all texts and all fragmentations", "why_tests_cant": "fragmentations are exponential", "anchors": ["src/json-lib/mtev_json_tokener.c: mtev_json_tokener_parse_ex"]}
{"id": "C41", "title": "Timers fire once, not early and in order", "statement": "A timed event is dispatched at most once per scheduling, never before its time has passed, never lost between the staged and active sets, and among those due in one sweep in order of time; the computed sleep never exceeds the time to the earliest timer or the configured maximum.", "quantifier": "all histories of add, update, remove and dispatch", "why_tests_cant": "histories and clocks are unbounded", "anchors": ["src/eventer/eventer_impl.c: eventer_add_timed, eventer_remove_timed, eventer_update_timed_internal, eventer_dispatch_timed"]}
{"id": "C42", "title": "strlcpy and strlcat honour their contract", "statement": "The fallback strlcpy/strlcat never write past size, always terminate when size>0 and return the length of the string they tried to create.", "quantifier": "all strings and sizes", "why_tests_cant": "boundary sizes for all strings", "anchors": ["src/utils/mtev_str.c: strlcpy, strlcat"]}
{"id": "C43", "title": "In-memory log ring returns intact recent lines in order", "statement": "After any sequence of writes, reading a memory log yields a suffix of the written lines, each intact, in order, never mixing bytes of different lines, and never touching memory outside the segment.", "quantifier": "all write histories and sizes", "why_tests_cant": "wrap around and head eviction depend on all sizes", "anchors": ["src/utils/mtev_log.c: membuf_logio_writev, mtev_log_memory_lines"]}
{"id": "C44", "title": "Generated UUIDs are well-formed version 4", "statement": "mtev_uuid_generate turns any 16 random bytes into a UUID whose version is 4 and whose variant is RFC 4122, keeping all other 122 random bits unchanged.", "quantifier": "all 16-byte random inputs", "why_tests_cant": "2^128 inputs", "anchors": ["src/utils/mtev_uuid_generate.c: mtev_uuid_generate"]}
{"id": "C45", "title": "Merge sort is stable", "statement": "Sorting a linked list keeps elements that compare equal in their original order, as the source comment says.", "quantifier": "all lists and all comparators that are total preorders", "why_tests_cant": "stability is a statement about all tie patterns", "anchors": ["src/utils/mtev_sort.c: mtev_merge_sort"]}
{"id": "C46", "title": "Boolean configuration strings", "statement": "A boolean configuration string is accepted exactly when it is yes/true/on (true) or no/false/off (false) in any letter case.", "quantifier": "all strings", "why_tests_cant": "all strings cannot be enumerated", "anchors": ["src/utils/mtev_confstr.c: mtev_confstr_parse_boolean"]}
{"id": "C47", "title": "mtev_strndup copies the bounded prefix", "statement": "mtev_strndup(src,len) returns a NUL-terminated copy of the bytes before the first NUL or of the first len bytes, whichever is shorter, and reads nothing past them.", "quantifier": "all source memories and lengths", "why_tests_cant": "boundary combinations of NUL position and len are unbounded", "anchors": ["src/utils/mtev_str.c: mtev_strndup"]}
{"id": "C48", "title": "String buffers hand out C strings", "statement": "The string returned by mtev_str_buff_to_string is NUL-terminated within its allocation.", "quantifier": "all append histories", "why_tests_cant": "needs an exact fit of the pieces to the current capacity", "anchors": ["src/utils/mtev_str.c: mtev_str_buff_to_string"]}
{"id": "C49", "title": "Atomic (A) access of progressive locks excludes R, S and W", "statement": "While a thread holds A no other thread holds R, S or W, for pl_try_a, pl_take_a, pl_drop_a and pl_try_rtoa mixed with all other operations; a failed upgrade leaves the caller's R valid.", "quantifier": "all thread counts below the field overflow bound, all interleavings of word accesses", "why_tests_cant": "the violation needs a third party to act between two specific accesses of one thread", "anchors": ["src/utils/mtev_plock.h: pl_try_a, pl_take_a, pl_drop_a, pl_try_rtoa"]}
{"id": "C50", "title": "Heavy progressive locks exclude and do not deadlock", "statement": "With the pthread-based variant, under any interleaving at most one thread is in S or W, nobody reads while one writes, and if no caller sits on the lock some pending operation can proceed.", "quantifier": "all thread counts, all interleavings of pthread calls", "why_tests_cant": "schedules are unbounded and a deadlock needs a particular one", "anchors": ["src/utils/mtev_plock.h: mtev_plock_heavy_take_r, _take_s, _take_w, _try_rtos, _stor, _stow, _wtos, _drop_*"]}
{"id": "C51", "title": "Unbounded caches are hash tables", "statement": "With max_entries -1 the LRU (as its header documents) and the LFU behave as a plain map: every put stores, get returns the last value put, remove returns and deletes it.", "quantifier": "all histories of put/get/release/remove/invalidate", "why_tests_cant": "a test suite exercises some histories; the documented equivalence is for all of them", "anchors": ["src/utils/mtev_lru.c:mtev_lru_put", "src/utils/mtev_lfu.c:mtev_lfu_put", "src/utils/mtev_lru.h"]}
{"id": "C52", "title": "Caches return the memory they take", "statement": "After invalidating (or destroying) a cache and releasing all tokens every value put has been freed exactly once and all bookkeeping memory has been returned.", "quantifier": "all histories followed by invalidate, all token release orders", "why_tests_cant": "leaks appear only for particular access patterns", "anchors": ["src/utils/mtev_lru.c:mtev_lru_invalidate", "src/utils/mtev_lfu.c:touch_lfu_cache_no_lock"]}
{"id": "C53", "title": "Replaced entries of the replacement hash are released exactly once and not while in use", "statement": "In every interleaving each entry of an mtev_frrh_t is given to the free callback at most once and never while it is in the table; when all calls are over an allocated entry is either in the table or was freed once; if the free callback defers release until no call is running, no interleaving reads freed memory.", "quantifier": "all hash functions, dice, numbers of threads and interleavings", "why_tests_cant": "needs a lookup to be descheduled between loading an entry and comparing its key", "anchors": ["src/utils/mtev_frrh.c: mtev_frrh_get, mtev_frrh_set"]}
{"id": "C54", "title": "Replacement-hash entries hold key and data without overlap", "statement": "For an 8-aligned allocation the key length, key and data of an entry are in bounds, disjoint, the data 8-aligned, and read back as written.", "quantifier": "all key lengths and data sizes", "why_tests_cant": "off-by-alignment errors appear for particular residues only", "anchors": ["src/utils/mtev_frrh.h: MTEV_FRRH_DATA", "src/utils/mtev_frrh.c: MTEV_FRRH_BASE_SIZE, mtev_frrh_set"]}
{"id": "C55", "title": "Query parameters are what the client sent", "statement": "For a request target made of a path and form-encoded parameters, the request exposes the original path, keeps the raw query string, and answers each key with the value of the first parameter of that name; no key appears twice in the table.", "quantifier": "all paths, parameter lists and byte values", "why_tests_cant": "combinations of separators, escapes and repeated keys are unbounded", "anchors": ["src/mtev_http1.c: mtev_http1_process_querystring", "src/mtev_http2.c: mtev_http2_process_querystring"]}
{"id": "C56", "title": "IP prefix tree deletion removes exactly the named route", "statement": "Deleting a prefix removes that route only, passes its data to the callback exactly once, and reports success exactly when such a route was stored.", "quantifier": "all histories, all prefixes", "why_tests_cant": "depends on tree shape; nodes created internally are indistinguishable to a test that only deletes inserted routes", "anchors": ["src/utils/mtev_btrie.c: del_route"]}
{"id": "C57", "title": "Skip list neighbour lookups report the adjacent elements", "statement": "A neighbour lookup reports the element directly before and the element directly after the match, or the two elements between which the key would go.", "quantifier": "all histories, random heights and keys", "why_tests_cant": "depends on random heights", "anchors": ["src/utils/mtev_skiplist.c: mtev_skiplist_find_neighbors, mtev_skiplisti_find_compare"]}
{"id": "C58", "title": "Adding an index to a skip list indexes all its elements", "statement": "After adding a comparator as an index, lookups through it see exactly the elements of the list.", "quantifier": "all histories and comparators", "why_tests_cant": "depends on the order of function addresses and on list contents", "anchors": ["src/utils/mtev_skiplist.c: mtev_skiplist_add_index"]}
{"id": "C59", "title": "Reported ownership of a node is the share of keys it gets", "statement": "After mtev_cht_set_nodes, the owned fraction reported for a node equals the fraction of hash values that a single lookup sends to it.", "quantifier": "all node sets, weights and hash functions", "why_tests_cant": "the hash space has up to 2^32 values", "anchors": ["src/utils/mtev_cht.c: mtev_cht_calculate_ring, mtev_cht_vlookup_n"]}
{"id": "C60", "title": "Bodies of known length are delivered exactly", "statement": "When a request carries a content length, the bytes handed to the application by successive mtev_http_session_req_consume calls are exactly the first content-length bytes after the headers, in order; 0 is returned only then; bytes of a following pipelined request stay on the connection; an error is reported only when a read fails or the peer ends the stream early.", "quantifier": "every stream of bytes, content length, split of the stream over reads (including would-block, end and error results) and sequence of consume calls with any buffer sizes", "why_tests_cant": "Tests send bodies in a few convenient pieces; the claim is about every split over reads, every amount asked for and every amount of pipelined data.", "anchors": ["src/mtev_http1.c:mtev_http1_session_req_consume", "src/mtev_http1.c:mtev_http1_session_req_consume_read"]}
{"id": "C61", "title": "Request body framing follows the headers", "statement": "A request announces its body by its headers: chunked when the transfer coding is chunked, otherwise of the announced content length, otherwise none; malformed or conflicting announcements are refused.", "quantifier": "all requests", "why_tests_cant": "a disagreement about framing only shows when the peer exploits it", "anchors": ["src/mtev_http1.c: mtev_http1_request_finalize_headers"]}
{"id": "C62", "title": "A request that fits in an extent is answered", "statement": "Interning a string whose object fits in one extent of the pool returns after at most one new extent, whatever the history of the pool.", "quantifier": "all pool configurations and histories", "why_tests_cant": "the search depends on the distribution of all free fragments, which no finite set of runs covers", "anchors": ["src/utils/mtev_intern.c: mtev_intern_pool_find, mtev_intern_pool_new, borrow_free_node, compact_freelist_with_lock"]}
{"id": "C63", "title": "REST requests reach the first endpoint registered for the longest base, and only if authorized", "statement": "After any registrations, a request is served by the first registered endpoint of the longest registered base its path starts with that has its method and a matching expression, with the texts of the groups as parameters; it is refused when that endpoint's authorizer refuses it and not found when there is none; each request of a connection is treated alike; websocket messages are served only when the authorizer given at registration accepts.", "quantifier": "all registration histories, requests and series of requests on a connection", "why_tests_cant": "registrations, paths and request series are unbounded", "anchors": ["src/mtev_rest.c: mtev_http_rest_new_rule_auth_closure, mtev_http_find_matching_route_rule, mtev_http_get_handler, mtev_rest_request_dispatcher, mtev_rest_websocket_dispatcher"]}
{"id": "C64", "title": "JSON texts are accepted with their meaning", "statement": "Every valid JSON text given to the tokener is accepted and the tree returned denotes the value of the text; nothing that is not JSON is accepted.", "quantifier": "all byte strings, all nesting depths, all white space layouts", "why_tests_cant": "The texts are infinitely many and nested without bound; tests try a handful of documents.", "anchors": ["src/json-lib/mtev_json_tokener.c:mtev_json_tokener_parse_ex"]}
{"id": "C65", "title": "Printing a JSON tree and parsing the text gives the tree back", "statement": "Serialising any array or object tree and parsing the resulting text gives a tree with the same value.", "quantifier": "all trees of objects, arrays, strings, integers, booleans and nulls", "why_tests_cant": "Trees are unbounded in size, depth and string content.", "anchors": ["src/json-lib/mtev_json_object.c:mtev_json_object_to_json_string", "src/json-lib/mtev_json_tokener.c:mtev_json_tokener_parse_ex"]}
{"id": "C66", "title": "Logic expressions are read as written", "statement": "mtev_logic_parse on any text of an expression of the documented grammar (comparisons, exists, not, and, or, with white space between tokens, quoted strings with escapes, integers, decimal fractions) succeeds, and mtev_logic_exec on the result gives the value of that expression; a text that is not an expression is refused with an error.", "quantifier": "all expressions of any depth and number of arguments and all ways to write each of them; all texts", "why_tests_cant": "The set of texts is infinite and the parser is a generated backtracking recogniser whose end-of-input check depends on how far it looked ahead.", "anchors": ["src/utils/mtev_logic.c:mtev_logic_parse", "src/utils/mtev-logic.leg", "src/utils/mtev-logic-leg.c:yyparse"]}
{"id": "C67", "title": "Callbacks of a descriptor exclude each other", "statement": "While a callback of a file descriptor is running no other thread runs a callback of that descriptor and none is started again from inside it; no thread waits for the lock of a descriptor whose callback it is in; when all threads are back in their loops nothing is locked; and calls on descriptors finish.", "quantifier": "all numbers of threads, descriptors and events, all programs of adds, removes, triggers, updates and owner changes, from callbacks or not, and all schedules", "why_tests_cant": "Which thread gets the lock, and who finds it taken by itself, depends on the interleaving of single memory accesses.", "anchors": ["src/eventer/eventer_epoll_impl.c: eventer_epoll_impl_trigger, eventer_epoll_impl_add, eventer_epoll_impl_remove, eventer_epoll_impl_remove_fd, eventer_epoll_impl_loop", "src/eventer/eventer_impl_private.h: acquire_master_fd, release_master_fd", "src/eventer/eventer_impl.c: eventer_cross_thread_trigger, eventer_cross_thread_process"]}
{"id": "C68", "title": "Events of descriptors stay with their owner, and the kernel is asked for what is registered", "statement": "In a program that adds an event only for a free descriptor, removes it from the thread that owns it, and updates or moves it in its callback: callbacks start only in the owner's thread and only for the registered event; whenever nothing goes on with a descriptor the kernel is asked for exactly the mask of the registered event, in its owner's epoll set alone, or for nothing; the process is not aborted. In any program an event is handed back at most once per registration.", "quantifier": "all numbers of threads, descriptors and events, all programs that keep the rules, all reports of the kernel and all schedules", "why_tests_cant": "The agreement of three pieces of state (table, event, kernel) has to hold after every interleaving of the calls of several threads.", "anchors": ["src/eventer/eventer_epoll_impl.c: eventer_epoll_impl_add, eventer_epoll_impl_remove, eventer_epoll_impl_remove_fd, eventer_epoll_impl_update, eventer_epoll_impl_trigger, eventer_epoll_impl_loop", "src/eventer/eventer_impl.c: eventer_cross_thread_trigger, eventer_cross_thread_process"]}
{"id": "C69", "title": "JSON objects are insertion ordered maps and JSON arrays are lists", "statement": "After any history of setting, replacing and deleting members of a JSON object, walking the object gives each live member once, oldest first, looking up a name gives the value last set or nothing, and every such call returns. After any history of appends and indexed writes a JSON array holds the corresponding list, padded with nulls, reads behind the end give nothing, and each write releases exactly the element it replaces.", "quantifier": "every history of calls of any length, every key, every hash function (all collision patterns), every array index", "why_tests_cant": "The table holds live, empty and freed slots in arrangements that depend on the whole history and on the hash of every key; a test visits a few of them and cannot show that probing always ends.", "anchors": ["src/json-lib/mtev_json_linkhash.c: jl_lh_table_insert, jl_lh_table_lookup_entry, jl_lh_table_delete_entry, jl_lh_table_resize, jl_lh_char_hash", "src/json-lib/mtev_json_object.c: mtev_json_object_object_add, mtev_json_object_object_get, mtev_json_object_object_del", "src/json-lib/mtev_json_arraylist.c: jl_array_list_put_idx, jl_array_list_get_idx, jl_array_list_expand_internal"]}
{"id": "C70", "title": "Heartbeat messages arrive whole and nothing else does", "statement": "A message given to the heartbeat sender reaches the input callback of a receiver with the same key exactly as sent, once and in the order of arrival, whatever other datagrams reach the port; no other datagram causes a call; the receiving handler returns and touches only its own buffers.", "quantifier": "every message, key, initialisation vector, every sequence of datagrams (any bytes, also hostile) and every outcome of memory allocation", "why_tests_cant": "The receiver acts on a length field any host on the network can forge, and its buffers live across datagrams; the number of sequences is unbounded.", "anchors": ["src/mtev_net_heartbeat.c: mtev_net_heartbeat_handler, mtev_net_heartbeat_serialize_and_send"]}
{"id": "C71", "title": "Payloads attached to cluster heartbeats arrive at the other nodes", "statement": "Whatever payloads an application attaches to and detaches from the heartbeat of a node, another node that receives the heartbeat gets, for each attached (application, key), exactly the bytes attached, and -1 for every other (application, key); it also learns the identity, boot time and configuration number of the sender exactly.", "quantifier": "every sequence of attach and detach calls, every payload content and length, every order of the table and every identity, boot time and number", "why_tests_cant": "Offsets into the message depend on the lengths of all payloads and on their order in a hash table; a test with payloads of one length does not notice a wrong sum.", "anchors": ["src/mtev_cluster.c: mtev_cluster_set_heartbeat_payload, mtev_cluster_unset_heartbeat_payload, mtev_cluster_get_heartbeat_payload, mtev_cluster_info_compose, mtev_cluster_info_process"]}
{"id": "C72", "title": "The oldest visible node of a cluster is known and agreed on", "statement": "After any sequence of heartbeats and silence the node reported as oldest is alive and no live node booted before it; nodes with the same knowledge agree on it, so that exactly one takes itself for the oldest; a node is declared dead exactly when it has been silent for longer than the timeout, and the update hook is called exactly for news, with the right reason.", "quantifier": "every sequence of heartbeats (from any nodes, with any contents) and of checks at any times, every cluster size, timeout and maturity", "why_tests_cant": "Membership depends on the order of heartbeats, deaths, reboots and equal boot times over an unbounded history.", "anchors": ["src/mtev_cluster.c: mtev_cluster_on_node_changed, mtev_cluster_find_oldest_node, mtev_cluster_check_timeout, mtev_cluster_info_process, mtev_cluster_get_oldest_node, mtev_cluster_am_i_oldest_visible_node", "src/mtev_defines.h: compare_timeval, sub_timeval_ms"]}
{"id": "C73", "title": "Every key of a cluster has the asked number of owners, known to all nodes", "statement": "For every key exactly w nodes of the cluster (all of them if it is smaller) answer that they own it; with the same filter all nodes get the same owner list and exactly its first node is told so; the newest configuration wins and the answers do not depend on the order in which nodes are listed or configurations arrive.", "quantifier": "every cluster, key, number w, hash function, filter and every sequence of configuration updates", "why_tests_cant": "Disagreement shows only on particular collisions of hashes, orders of updates or cluster sizes.", "anchors": ["src/mtev_cluster.c: mtev_cluster_do_i_own, mtev_cluster_filter_owners, mtev_cluster_update_internal, mtev_cluster_compile", "src/utils/mtev_cht.c: mtev_cht_vlookup_n"]}
{"id": "C74", "title": "Compressed data decompresses to the data", "statement": "What mtev_compress (gzip, deflate), and any sequence of mtev_stream_compress calls followed by mtev_stream_compress_flush, writes is a gzip member (RFC 1952, with the right CRC-32 and length) or a deflate stream (RFC 1951) that a standard decompressor turns back into exactly the bytes given; the compressor reads nothing outside its input, and a second flush writes nothing.", "quantifier": "every byte sequence, every division of it into pieces, both formats", "why_tests_cant": "the output depends on every repetition within 32 kB, on hash collisions, on the alignment of bits left over from earlier calls and on the mix of literal, stored and matched runs; tests can only try some of them", "anchors": ["src/slz-lib/slz.c: slz_rfc1951_encode, copy_lit, copy_lit_huff, memmatch, slz_rfc1951_finish, slz_rfc1952_encode, slz_rfc1952_finish, slz_crc32_by4", "src/slz-lib/tables.h: fixed_huff, len_fh, fh_dist_table, crc32_fast", "src/utils/mtev_compress.c: mtev_compress_gzip, mtev_compress_deflate, mtev_stream_compress, mtev_stream_compress_flush"]}
{"id": "C75", "title": "The compressors stay within their buffers", "statement": "mtev_compress_gzip and mtev_compress_deflate never write more than the buffer they allocate, and a call of mtev_stream_compress writes no more than mtev_compress_bound promises for its input, whatever was compressed before.", "quantifier": "every byte sequence, every history of calls on the stream", "why_tests_cant": "the worst case is a particular mix of incompressible runs and short repetitions; typical data compresses and never shows the overflow", "anchors": ["src/utils/mtev_compress.c: mtev_compress_bound, mtev_compress_gzip, mtev_compress_deflate, mtev_stream_compress_gzip, mtev_stream_compress_flush_gzip", "src/slz-lib/slz.c: slz_rfc1951_encode", "src/mtev_http_private.h: mtev_http_process_output_bchain, raw_finalize_encoding"]}
{"id": "C76", "title": "Login cookies cannot be forged and name their user", "statement": "The cookie module lets a request through exactly when its Cookie header carries, as the first cookie of the configured name, a value whose signature is the keyed hash of its payload, for the configured user and domain, and not older than the configured age; the user it reports is the one the cookie was issued to; a browser is sent the cookie for the domain of the host it asked for, and the login form's fields are taken as posted.", "quantifier": "every key and hash function, every Cookie header, user name, host, form body and clock value", "why_tests_cant": "the forgeries worth trying are the ones no test author thought of; length and separator corner cases need all byte strings", "anchors": ["src/modules/http_hmac_cookie.c: hmac_hash, check_cookie, encode_cookie, add_part, add_signature, http_hmac_login, http_hmac_cookie_auth"]}
{"id": "C77", "title": "A response head reads back as it was set", "statement": "However an application sets the status, headers and options of a response, the bytes sent before the body read back, by the grammar of HTTP, as that status, each header once with its last value, the headers the library adds and nothing else; the body that follows is always delimited; an encoding is used only if the client accepts it; and nothing can be changed once sending has started.", "quantifier": "every request protocol and Accept-Encoding, every sequence of calls with every name, value and reason, every order of the header table", "why_tests_cant": "depends on header text, buffer boundaries at 32k and on the interplay of options in any order", "anchors": ["src/mtev_http1.c: mtev_http1_response_status_set, mtev_http1_response_header_set, mtev_http1_response_option_set, _http_construct_leader", "src/modules/http_hmac_cookie.c: http_hmac_login"]}
{"id": "C78", "title": "Channels over a reverse connection carry each byte stream intact", "statement": "Over one reverse connection any number of channels carry byte streams in both directions. Whatever portions endpoints and connection read and write, and whenever either is refused or fails, an endpoint is given exactly the bytes its counterpart on the same channel sent, in order, up to some point (all of them once everything has drained), never bytes of another channel or of an earlier use of the channel; whatever the peer sends, memory stays intact and at most one frame is buffered per connection; after a lost connection a client starts over cleanly.", "quantifier": "every interleaving of opening channels, endpoint activity and connection activity on both sides, every split of reads and writes, every failure point, every byte stream from a hostile peer", "why_tests_cant": "the number of interleavings of partial header and payload reads with channel closings is unbounded; a hostile peer needs all byte strings", "anchors": ["src/mtev_reverse_socket.cpp: mtev_reverse_socket_handler, mtev_reverse_socket_channel_handler, mtev_reverse_socket_connect, mtev_reverse_socket_shutdown, append_out, pop_out, append_in, command_out"]}
{"id": "C79", "title": "Reverse connections are found under identifiers they are entitled to", "statement": "A peer that announces itself gets the identifier it asks for only if its certificate carries that name (for prefixes that require one) and the access lists allow it; whoever asks for an identifier reaches the one connection that is up under it; a connection stays reachable until it ends, whatever others ask for; the announcement may arrive in any portions, is limited in size, and nothing behind it is consumed.", "quantifier": "every sequence of connections, announcements and disconnections, every split of the bytes, every certificate name and access list", "why_tests_cant": "the order in which good and refused announcements meet matters, and so do all byte strings in names", "anchors": ["src/mtev_reverse_socket.cpp: mtev_reverse_socket_acceptor, mtev_reverse_socket_allowed, mtev_reverse_socket_shutdown, mtev_reverse_socket_connect"]}
{"id": "C80", "title": "Clients retry with bounded exponential delays", "statement": "After each failed or lost connection a client waits before it tries again: the first time the configured initial interval, then twice as long each time, never longer than the configured maximum nor than an hour, and once a connection was made the next loss starts again with the initial interval.", "quantifier": "every configuration and every history of failures and successes", "why_tests_cant": "needs all histories and all configured numbers", "anchors": ["src/mtev_reverse_socket.cpp: mtev_connection_schedule_reattempt"]}
{"id": "C81", "title": "Memory handed to safe free stays valid for its readers", "statement": "A block obtained inside a section opened with mtev_memory_begin may be used until the matching mtev_memory_end, even if any thread passes it to mtev_memory_safe_free meanwhile: its cleanup runs only after every section in which somebody obtained it has ended. This holds for nested sections, for coroutines that yield inside a section while others run on the same thread, and for every kind of maintenance, with and without the collector thread, including the end of threads.", "quantifier": "every interleaving of threads, coroutines, sections, frees, maintenance calls of all kinds, collector activity and thread ends", "why_tests_cant": "the number of interleavings is unbounded and a too early cleanup shows only under particular schedules", "anchors": ["src/utils/mtev_memory.c: mtev_memory_begin, mtev_memory_end, mtev_memory_safe_free, mtev_memory_maintenance_ex, mtev_memory_gc, mtev_memory_fini_thread", "src/eventer/eventer_aco_opset.c: eventer_aco_resume, eventer_aco_yield"]}
{"id": "C82", "title": "Safe memory reclamation itself is memory safe", "statement": "Whatever threads, coroutines and the collector do, reclamation never uses its own lists and queues after they were freed, never frees them twice and never meets a missing section; the only assertion that can fail is the one that reports a block freed twice.", "quantifier": "every interleaving as in C81, every address malloc may return", "why_tests_cant": "use after free between an ending thread and the collector needs particular schedules and particular answers of malloc", "anchors": ["src/utils/mtev_memory.c: mtev_memory_queue_asynch, mtev_memory_gc, mtev_memory_gc_return, terminate_gc_return, mtev_gc_sync_complete, mtev_memory_init_epoch"]}
{"id": "C83", "title": "Cleanup runs exactly once", "statement": "The cleanup of a block handed to mtev_memory_safe_free runs at most once and never for a block nobody handed over; handing it over twice is caught; no block is forgotten, also not when its thread ends.", "quantifier": "every history of allocations, frees, maintenance and thread ends", "why_tests_cant": "a lost or repeated cleanup depends on the interleaving of the collector and ending threads", "anchors": ["src/utils/mtev_memory.c: mtev_memory_safe_free, mtev_memory_real_free, mtev_memory_fini_thread, mtev_memory_gc"]}
{"id": "C84", "title": "Maintenance reclaims once readers are gone", "statement": "Once no section is open, maintenance cleans up what the calling thread has handed over: with a barrier at once, with the collector by the time of the next maintenance; an attempt that fails because somebody was reading is made up for by a later one; what cleanup functions hand over in turn is cleaned up too.", "quantifier": "every reachable state of all threads and the collector, every kind of maintenance", "why_tests_cant": "progress must hold from every reachable state; a forgotten block is only noticed as growth", "anchors": ["src/utils/mtev_memory.c: mtev_memory_maintenance_ex, mtev_memory_maintenance, mtev_memory_gc"]}
{"id": "C85", "title": "Files are served from below the document root only", "statement": "The static file handler answers a request with the content of a file below the configured document root, or refuses it; no spelling of the path (dots, double slashes, symbolic links) makes it send anything else. Readable files below the root are sent whole when named, a directory with a slash at its end is answered with its index file, and the content type is that of the file's extension, as configured.", "quantifier": "every file system, document root, configuration and requested path", "why_tests_cant": "the space of path spellings, links and directory names is unbounded, and the interesting ones depend on what exists next to the root", "anchors": ["src/mtev_rest.c: mtev_rest_simple_file_handler, mtev_http_rest_init (mime types)"]}
{"id": "C86", "title": "Command lines are split into the words written", "statement": "A command line is split into exactly the words that were written, whether bare, in single or in double quotes, with escapes; every word can be written; unfinished quotes are reported; no more words are stored than there is room for.", "quantifier": "every list of words, every way of quoting each, every amount of blanks, every text", "why_tests_cant": "all texts and all nestings of quotes and escapes", "anchors": ["src/mtev_tokenizer.c: mtev_tokenize, token_scan, c_unescape"]}
{"id": "C87", "title": "Log lines reach every enabled output they are routed to, and no other", "statement": "Log streams form a graph; a line logged to a stream is written once for every way from it, through enabled streams and outlets whose filters accept the line, to a stream with an output, and nothing else is written. Asking beforehand whether a stream has material output gives the right answer, whatever calls made, joined, parted, enabled or disabled streams before.", "quantifier": "every history of calls that make and change streams, every graph and set of filters, every line", "why_tests_cant": "the derived bits that short-cut logging must be right after every history of changes to an arbitrary graph", "anchors": ["src/utils/mtev_log.c: mtev_log_stream_new, mtev_log_stream_new_on_fd, mtev_log_stream_add_stream, mtev_log_stream_add_stream_filtered, mtev_log_stream_remove_stream, mtev_log_stream_set_flags, MATERIALIZE_DEPS, materialize_deps, mtev_log_final_resolve, mtev_log_line, log_stream_to_ls"]}
{"id": "C88", "title": "Log records are complete lines with whole prefixes", "statement": "A file gets one record for every line of a message, each with the full prefix (time, stream, place) and one newline; put together the lines are the message. Other outputs get the message whole. Nothing is written past the buffers used, also inside signal handlers, and the call says how much was written.", "quantifier": "every message, stream name, place, time and choice of prefixes", "why_tests_cant": "all message texts, lengths and combinations of prefixes; cut offs depend on lengths tests do not choose", "anchors": ["src/utils/mtev_log.c: mtev_log_line, mtev_log_writev, mtev_vlog"]}
{"id": "C89", "title": "Lines logged to a file are written once and in order", "statement": "With any number of threads logging to a file, in synchronous or asynchronous mode, and through changes of the mode and reopening, every line is written once and the lines of one thread in the order it logged them; no memory is used after it was freed; there is one writer thread at a time.", "quantifier": "every number of threads, every interleaving of their steps with the writer threads and with calls that change the mode or reopen the file, every result of the system's write", "why_tests_cant": "interleavings at the level of single queue operations cannot be produced by tests", "anchors": ["src/utils/mtev_log.c: asynch_logio_writer, posix_logio_write, posix_logio_asynch_write, mtev_log_go_asynch, mtev_log_go_synch, asynch_log_ctx_init, asynch_log_push, asynch_log_pop, asynch_log_line, posix_logio_reopen"]}
{"id": "C90", "title": "A peer is accepted only with a certificate that passes every check asked for", "statement": "Once a connection is set up over TLS, a peer is let through exactly if its certificate was signed by a known authority, is within its dates and not revoked, except for the checks the program switched off (optional_no_ca, ignore_dates and so on); the outcome is recorded for the program to read.", "quantifier": "every chain of certificates, every result OpenSSL may report at every depth, every choice of checks, every time", "why_tests_cant": "tests use one or two certificates; the property is about every combination of errors at every depth and every switch", "anchors": ["src/eventer/eventer_SSL_fd_opset.c: verify_cb, eventer_ssl_verify_cert, eventer_ssl_verify_dates, eventer_SSL_setup", "src/mtev_listener.c: mtev_listener_acceptor", "src/eventer/eventer_SSL_fd_opset.h"]}
{"id": "C91", "title": "The names taken from a certificate are those in it", "statement": "Gathering the alternative names, the subject and the common name of a peer never writes outside its buffers; afterwards they are those of the peer's own certificate; the common name used to identify a peer is the one of the subject.", "quantifier": "every chain of certificates with any subjects and alternative names", "why_tests_cant": "all names, lengths and contents (also with separators and zero bytes inside) a certificate may carry", "anchors": ["src/eventer/eventer_SSL_fd_opset.c: eventer_ssl_get_san_values, eventer_ssl_get_peer_subject", "src/mtev_listener.c: mtev_listener_acceptor", "src/mtev_reverse_socket.cpp: mtev_reverse_socket_acceptor"]}
{"id": "C92", "title": "A TLS connection uses the settings asked for", "statement": "Contexts are cached and shared; whatever was asked for before, a connection gets a context for its own role, layer, certificate, key, authority, ciphers and revocation list, read from the files not longer ago than the cache's time limit, and what one connection does does not change those of others.", "quantifier": "every history of requests with any settings and times, every digest function without collisions among them", "why_tests_cant": "sharing depends on the whole history of requests and on every pair of settings that might be taken for the same", "anchors": ["src/eventer/eventer_SSL_fd_opset.c: eventer_ssl_ctx_new, eventer_ssl_ctx_new_ex, ssl_ctx_key_write, ssl_ctx_cache_get, ssl_ctx_cache_set, eventer_ssl_use_crl"]}
{"id": "C93", "title": "A connection speaks the protocol versions its layer asks for", "statement": "The layer of a TLS connection is a protocol and a list of options; a version is spoken exactly if it is within the last lower and upper bound given and not switched off by the last option naming it.", "quantifier": "every protocol text and list of options in any order, number and case", "why_tests_cant": "all lists of options; later options change what earlier ones did", "anchors": ["src/eventer/eventer_SSL_fd_opset.c: eventer_ssl_ctx_new_ex (layer parsing)", "docs-md/config/listeners.md"]}
{"id": "C94", "title": "The application protocol agreed on is one both sides speak", "statement": "During the TLS handshake the server picks, from those the client offers, a protocol that is registered and advertised, HTTP/2 if it is offered; the list advertised has the registered protocols in their order and is built inside its memory.", "quantifier": "every list of protocols a client offers, every set of registered protocols and functions, every list in the configuration", "why_tests_cant": "clients may offer any names in any order; the wrong choice shows only with some of them", "anchors": ["src/eventer/eventer_SSL_fd_opset.c: next_proto_cb, alpn_select_proto_cb, eventer_alpn_select_always, eventer_ssl_alpn_register, eventer_ssl_alpn_advertise", "src/eventer/eventer_SSL_fd_opset.h: EVENTER_SSL_ALPN_MATCHER", "src/mtev_http1.c: http11_alpn_mather", "src/mtev_http2.c: mtev_http2_init"]}
{"id": "C95", "title": "The dates of a certificate mean what the calendar says", "statement": "The start and end of a certificate's validity, in either of the two forms and in any zone, are read as the number of seconds between that date and time and the start of 1970; texts that are no dates are refused.", "quantifier": "every date from year 0 to 9999, time of day, zone, fraction and form; every text", "why_tests_cant": "all dates: leap years, centuries, ends of months and years, zones", "anchors": ["src/eventer/OETS_asn1_helper.c: OETS_ASN1_TIME_get, pint"]}
{"id": "C96", "title": "Restarts of the child are limited", "statement": "With `retries` and `span` configured, the monitor restarts a child that ends at most `retries` times within any `span` seconds and exits instead of going beyond; negative and too large settings are brought into range.", "quantifier": "every sequence of ends, crashes, hangs and passing of time, every setting", "why_tests_cant": "the limit is about every history of crash times; a test can wait for one or two restarts only", "anchors": ["src/utils/mtev_watchdog.c: mtev_watchdog_ratelimit, update_retries, mtev_watchdog_start_child", "docs-md/config/watchdog.md"]}
{"id": "C97", "title": "A child that dies is replaced, one at a time", "statement": "When the child ends without having asked to shut down, the monitor starts another; it does so only once the old one is dead or has given up its resources, so there are not two children doing service; the monitor exits exactly for the reasons documented.", "quantifier": "every interleaving of what the children do (crash, stop, hang, end) with what the monitor does", "why_tests_cant": "the races between a dying child, its notice to the monitor and the signals of the monitor cannot be scheduled by a test", "anchors": ["src/utils/mtev_watchdog.c: mtev_watchdog_start_child, emancipate", "docs-md/config/watchdog.md"]}
{"id": "C98", "title": "A child is taken for hung exactly if a heart is silent for longer than its time limit", "statement": "The monitor finds a hang exactly when an enabled heart has not beaten for longer than its time limit; hearts that are switched off do not count; creating hearts from several threads gives each its own.", "quantifier": "every number of hearts, every sequence of beats, checks, switching and passing of time, every interleaving of two creations", "why_tests_cant": "it is about all timings of beats and checks, and about races between the threads and the monitor", "anchors": ["src/utils/mtev_watchdog.c: it_ticks, last_tick_time, mtev_heartcheck, mtev_watchdog_create, mtev_watchdog_enable, mtev_watchdog_disable, mtev_watchdog_enable_all, mtev_watchdog_disable_all", "src/utils/mtev_watchdog.h"]}
{"id": "C99", "title": "Managed applications are kept running, one instance each, with pauses between failures", "statement": "Each managed application has at most one instance; one that ends is started again: at once after exit code 0, otherwise after a pause that grows by half each time up to six seconds; when the monitor exits all of them are told to terminate.", "quantifier": "every number of applications, every sequence of ends, stops, failures to fork, waits, alarms and passing of time", "why_tests_cant": "histories of several applications failing at arbitrary times and processes being stopped and resumed are unbounded", "anchors": ["src/utils/mtev_watchdog.c: launch_managed, process_managed, cleanup_managed, mtev_watchdog_start_child", "docs-md/config/managed.md"]}
{"id": "C100", "title": "A managed application is started as configured", "statement": "The arguments, user, group, directory and environment an application is started with are those configured, in order, with variables without a value pulled from the parent; applications switched off are not managed.", "quantifier": "every configuration and every environment of the parent", "why_tests_cant": "all numbers and contents of arguments and variables, present and missing in any order (slots of one array are used again)", "anchors": ["src/mtev_main.c: mtev_main_load_managed", "src/utils/mtev_watchdog.c: mtev_watchdog_manage, launch_managed", "docs-md/config/managed.md"]}
{"id": "C101", "title": "Names of hearts are safe in the glider's command, and time limits are told truly", "statement": "A heart's name, whatever it was set to, has only letters, digits and four harmless characters, so the command run for it has exactly the words intended; the time limit and the time left told for a heart agree with its settings.", "quantifier": "every name, every process number, every time limit and every time", "why_tests_cant": "all byte strings as names and all time limits, also very large ones", "anchors": ["src/utils/mtev_watchdog.c: mtev_watchdog_set_name, mtev_watchdog_get_name, run_glider, mtev_watchdog_get_timeout, mtev_watchdog_get_timeout_timeval, mtev_watchdog_remaining", "src/utils/mtev_watchdog.h", "src/mtev_defines.h: add_timeval, sub_timeval"]}
{"id": "C102", "title": "Settings are inherited from enclosing sections and by name", "statement": "Reading an attribute with inheritance gives the value at the nearest enclosing element that has it. Reading a set of values (such as `config`) gives, for each key, the value of the section's own set, else of what that set inherits by name, else of the nearest enclosing section, as documented.", "quantifier": "every document (any depth and number of elements, attributes and keys), every section and key", "why_tests_cant": "all shapes of nested documents and chains of inheritance; a test covers a handful", "anchors": ["src/mtev_conf.c: mtev_conf_get_into_hash, mtev_conf_get_elements_into_hash, mtev_conf_get_namespaced_hash, mtev_conf_get_string", "docs-md/config/inherit.md"]}
{"id": "C103", "title": "A section with require_env is used exactly if the environment meets the requirement", "statement": "`require_env` (presence, `=value`, `~regex`, with or without `!`, on the section and on those around it) switches a section off exactly if one of the requirements is not met.", "quantifier": "every environment, every list of requirements, every regular expression matcher", "why_tests_cant": "all environments and all chains of requirements with and without negation", "anchors": ["src/mtev_conf.c: mtev_conf_env_off", "docs-md/config/README.md"]}
{"id": "C104", "title": "References to the environment within values are filled in", "statement": "`{{ENV:default:{KEY}}}` within a value is replaced by the variable, or by the default if the variable is not set; the rest of the value is left as it is.", "quantifier": "every value with any number of references, every environment", "why_tests_cant": "all texts around the references, all contents of variables (containing references themselves)", "anchors": ["src/mtev_conf.c: mtev_conf_generic_fixup, mtev_conf_env_interpolate"]}
{"id": "C105", "title": "A value that is a reference to the environment is replaced", "statement": "A value `ENV:default:{KEY}` is read as the variable, or as the default if the variable is not set; no other value is replaced.", "quantifier": "every value and every environment", "why_tests_cant": "all byte strings as values, names of any length", "anchors": ["src/mtev_conf.c: mtev_conf_OLD_env_fixup, mtev_conf_get_string"]}
{"id": "C106", "title": "Integers in the configuration are read as the numbers written", "statement": "A number written in decimal (or, for 32 bits, in hexadecimal or octal) is read as that number; what is stored is read back; the call fails exactly if there is no value.", "quantifier": "every text and every integer", "why_tests_cant": "all lengths of digits, all bases, all edges of the ranges", "anchors": ["src/mtev_conf.c: mtev_conf_string_to_int32, mtev_conf_string_to_uint32, mtev_conf_get_int32, mtev_conf_set_int"]}
{"id": "C107", "title": "Truth values in the configuration", "statement": "A text is read as true exactly if it is `true` or `on` in any letter case; what is stored is read back.", "quantifier": "every text", "why_tests_cant": "all byte strings", "anchors": ["src/mtev_conf.c: mtev_conf_string_to_boolean, mtev_conf_get_boolean"]}
{"id": "C108", "title": "Sections of the configuration are held by many readers or one writer", "statement": "While one party holds a section for writing nobody else holds any section; a holder can take sections again without waiting; releasing returns the lock to its first state; anyone can get a section when all others have released theirs.", "quantifier": "every number of threads and coroutines, every interleaving of acquiring and releasing, every depth of nesting", "why_tests_cant": "races between lock, counter and owner cannot be scheduled by a test", "anchors": ["src/mtev_conf.c: mtev_conf_acquire_section_read, mtev_conf_acquire_section_write, mtev_conf_release_section_read, mtev_conf_release_section_write", "src/utils/mtev_thread.c: mtev_thread_id"]}
{"id": "C109", "title": "Saving an XML file replaces it entirely or not at all", "statement": "Whatever is cut off and whichever calls fail, a reader who takes the file (or the backup if there is no file) gets the text from before or the new one, and the new one if the call reported success.", "quantifier": "every text, every crash point, every combination of failing system calls, every leftover of earlier saves, histories of any length", "why_tests_cant": "crash points and failures between system calls cannot all be provoked by a test", "anchors": ["src/mtev_xml.c: mtev_xmlSaveToFile, mtev_xmlSaveFormatFile"]}
{"id": "C110", "title": "A section kept in files of its own is read back after a crash", "statement": "A section written to the backing store is read back (once, with its attributes) whatever happened to the process while it was saving.", "quantifier": "every text, crash point and combination of failing calls", "why_tests_cant": "the directory is read after crashes at any point of a save", "anchors": ["src/mtev_conf.c: mtev_conf_read_into_node", "src/mtev_xml.c: mtev_xmlSaveToFile"]}
{"id": "C111", "title": "The configuration as text in memory is complete", "statement": "The text of the configuration in memory is exactly what the XML library produced, with its length, or with a NUL after it, in memory the caller owns.", "quantifier": "every text cut into any pieces", "why_tests_cant": "lengths at the edges of the growing buffer", "anchors": ["src/mtev_xml.c: mtev_xmlSaveToBuffer", "src/mtev_conf.c: mtev_conf_xml_in_mem, mtev_conf_reload"]}
{"id": "C112", "title": "Writing the configuration file and what it includes", "statement": "After a successful write the main file and each included file hold their new texts; at any moment each holds its old or its new text; other files are not touched; if the write fails the main file is as it was.", "quantifier": "every tree of included files, every text, every crash point and combination of failing calls", "why_tests_cant": "all shapes of includes and all crash points", "anchors": ["src/mtev_conf.c: mtev_conf_write_file, write_out_include_files"]}
{"id": "C113", "title": "Included files are mixed in and written back each to its own", "statement": "Loading puts the contents of all files matching an include one after the other below it; for writing each file gets exactly its own elements, in order, new ones with those before them; afterwards the running configuration is as it was.", "quantifier": "any number of files of any length, any number of elements added, any number of writes", "why_tests_cant": "pointer structures of every size, including empty files and elements added at every place", "anchors": ["src/mtev_conf.c: mtev_conf_magic_mix, mtev_conf_kansas_city_shuffle_undo, mtev_conf_kansas_city_shuffle_redo"]}
{"id": "C114", "title": "Removing an included section removes exactly that section", "statement": "After a section of an included file is removed, the running configuration and the file hold the other ones in order, and more can be removed.", "quantifier": "any number of sections, any place of the removed one", "why_tests_cant": "pointer structures of every size", "anchors": ["src/mtev_conf.c: mtev_conf_include_remove, remove_emancipated_child_node, mtev_conf_remove_section", "src/mtev_conf.h: CONF_REMOVE"]}
{"id": "C115", "title": "The backing store's files follow the sections", "statement": "After a write of the backing store its files are exactly the sections kept there, with their texts and attributes, over any history of changes, removals and writes; a section that was not changed is not written again.", "quantifier": "every tree of sections, every history of edits and writes, every clock and every combination of failing saves", "why_tests_cant": "the store is out of date only after certain orders of changes, failures and clock readings", "anchors": ["src/mtev_conf.c: mtev_conf_backingstore_remove, mtev_conf_backingstore_dirty, mtev_conf_backingstore_write, mtev_conf_shatter_write"]}
{"id": "C116", "title": "Lua: what string.pack packed string.unpack unpacks", "statement": "For every format and all values it can carry, unpacking what was packed with the same format gives the values and the position after them, in the byte order the format says; unpacking arbitrary bytes never reads outside the string.", "quantifier": "every format string (letters, counts, byte orders), every list of values, every byte string and start", "why_tests_cant": "bytes from the network meet formats of any shape; the failures are at the edges of the integer types", "anchors": ["src/modules/lua_lpack.c: l_pack, l_unpack, doswap"]}
{"id": "C117", "title": "Lua: bit operations are those on 32-bit two's complement numbers", "statement": "Each function of the bit library gives the number of the range -2^31..2^31-1 whose bits are the ones its name says, for all integer arguments, and tohex the digits of it.", "quantifier": "all integers and counts, any number of arguments", "why_tests_cant": "2^32 arguments and as many counts", "anchors": ["src/modules/lua_bit.c: barg, BRET, bit_tobit, bit_bnot, BIT_OP, BIT_SH, bit_bswap, bit_tohex"]}
{"id": "C118", "title": "A lock file is held by one process at a time", "statement": "At most one process holds a lock file; a process that ends gives it up; acquiring fails only if another process had it during the call; the owner that is reported is one that had it.", "quantifier": "any number of callers and processes, every interleaving of the system calls and ends of processes", "why_tests_cant": "interleavings of processes and crashes", "anchors": ["src/utils/mtev_lockfile.c: mtev_lockfile_acquire, mtev_lockfile_acquire_owner, mtev_lockfile_release"]}
{"id": "C119", "title": "The directories of a file are made", "statement": "If the call for the directories of a file succeeds they are all there; it adds nothing else; it succeeds if nothing is in the way and the system refuses nothing.", "quantifier": "every path below the limit, every file system, every set of refusals", "why_tests_cant": "file systems and paths of any depth, with repeated slashes", "anchors": ["src/utils/mtev_mkdir.c: mkdir_for_file"]}
{"id": "C120", "title": "The console runs the command that was meant", "statement": "A name in full runs that command, capital letters or not; a beginning of just one command runs it; a beginning of several runs none and lists them; of two commands of one name the first counts.", "quantifier": "every table of commands built in any order, every word", "why_tests_cant": "which neighbours a word has in the table depends on all names in it", "anchors": ["src/mtev_console_state.c: _mtev_console_state_do, mtev_console_state_add_cmd, cmd_info_comparek"]}
{"id": "C121", "title": "Completion of console commands is complete and safe", "statement": "The completions offered are all commands that begin with what was typed; what is put in its place is their longest common beginning; the array of them is never overrun.", "quantifier": "every table of commands, every word, any number of completions", "why_tests_cant": "the array grows at certain counts only; names of all shapes", "anchors": ["src/mtev_console_complete.c: mtev_console_opt_delegate, completion_matches"]}
{"id": "C122", "title": "Applying a console command puts each argument in its place", "statement": "`apply` runs the command once for each expanded argument, in order, with every occurrence of the named placeholder in each word replaced by it and everything else unchanged; no buffer is overrun.", "quantifier": "every command line, every placeholder name, every list of expansions", "why_tests_cant": "names and words of every length, any number of occurrences", "anchors": ["src/mtev_console_state.c: mtev_console_generic_apply, apply_replace"]}
{"id": "C123", "title": "Ranges expand to what they say", "statement": "A range of numbers `a..b` or `a,b..c` expands to all numbers from the start to the end, both included, in steps of the difference, upwards or downwards; a range of addresses to the addresses of the network; anything else is refused.", "quantifier": "every pair or triple of integers, every address and mask", "why_tests_cant": "off by one at either end of any range, any direction and step", "anchors": ["src/mtev_console_state.c: expand_range"]}
{"id": "C124", "title": "The zone at a time is the one in force", "statement": "The zone found for a time is that of the last transition not after it.", "quantifier": "every zone file that was read, every time", "why_tests_cant": "the search goes wrong only for certain numbers of transitions and certain times", "anchors": ["src/utils/tzinfo.c: libtz_tzzone_at"]}
{"id": "C125", "title": "Reading a zone file is safe and gives what is in it", "statement": "A file is read only if its counts are within limits and all indices inside the tables; what is read is what was written there.", "quantifier": "every file", "why_tests_cant": "damaged files of every kind", "anchors": ["src/utils/tzinfo.c: libtz_open, parse_tzfile, libtz_tzinfo_name"]}
{"id": "C126", "title": "Zones in formats", "statement": "`%z` becomes sign, hours and minutes of the offset, `%Z` the name of the zone, everything else is left for strftime; the buffer is never overrun.", "quantifier": "every format, name and offset", "why_tests_cant": "every offset and every position of a specifier at the end of the buffer", "anchors": ["src/utils/tzinfo.c: libtz_strftime"]}
{"id": "C127", "title": "Giving up privileges is final", "statement": "If changing user and group reports success the process has the user and group asked for and no sequence of calls brings user 0 back; changing only the effective ones can be undone and changes nothing else; unknown names change nothing.", "quantifier": "every process (real, effective and saved users and groups), every text for user and group, every later sequence of calls", "why_tests_cant": "all combinations of identities and all later calls", "anchors": ["src/utils/mtev_security.c: mtev_security_usergroup, isuinteger"]}
{"id": "C128", "title": "What a telnet client sends arrives", "statement": "Whatever a console's telnet client sends - bytes, commands, option messages and suboptions, IAC doubled - comes out of the receiver as it was meant, once and in order, however the bytes are split into reads and however many clients there are; no buffer is overrun.", "quantifier": "every sequence of items, every splitting into reads, every interleaving of connections, every byte stream for the bounds", "why_tests_cant": "escapes split at any byte, suboptions of any length, any interleaving of clients", "anchors": ["src/mtev_console_telnet.c: mtev_console_telnet_telrcv"]}
{"id": "C129", "title": "Telnet options are agreed on and negotiation ends", "statement": "Two ends that accept an option end up agreeing about it whatever they asked for and whenever messages arrive, and stop sending; an option is only on after the peer's consent; an option not supported is refused; a message that changes nothing is not answered; a request is sent once.", "quantifier": "every starting state, every sequence of requests and arrivals", "why_tests_cant": "message crossings of every kind, loops that never end", "anchors": ["src/mtev_console_telnet.c: mtev_console_telnet_willoption, mtev_console_telnet_wontoption, mtev_console_telnet_dooption, mtev_console_telnet_dontoption, mtev_console_telnet_send_do"]}
{"id": "C130", "title": "Spans are encoded in full or reported as too long", "statement": "Encoding a span (or a list of spans) into a buffer of any size never writes outside it and returns the length of the full encoding; if that length is not more than the size, the buffer holds exactly the encoding the Thrift binary protocol prescribes; what is published is that encoding.", "quantifier": "every span (any texts, numbers, lists of annotations, missing fields), every buffer size, every previous content of memory", "why_tests_cant": "all lengths around every boundary; garbage in memory looks like data", "anchors": ["src/utils/mtev_zipkin_encode.h: ze_Zipkin_Span, ze_Zipkin_Annotation, ze_Zipkin_BinaryAnnotation, ze_Zipkin_Endpoint, ze_Zipkin_String", "src/utils/mtev_zipkin.c: mtev_zipkin_encode, mtev_zipkin_encode_list, mtev_zipkin_span_publish"]}
{"id": "C131", "title": "Spans have the identities and are sampled as documented", "statement": "A new span takes trace, parent and identity as given; without a trace it starts one; a child belongs to its parent's trace and names it; a span is left out just if it is not forced and the number drawn is above the probability that applies.", "quantifier": "every combination of given and missing identities, all probabilities, all random numbers", "why_tests_cant": "all combinations of arguments and random draws", "anchors": ["src/utils/mtev_zipkin.c: mtev_zipkin_span_new, mtev_zipkin_new_child", "src/utils/mtev_zipkin_encode.h: ze_get_traceid"]}
{"id": "C132", "title": "A span covers its annotations", "statement": "A span starts at the earliest and ends at the latest of the times it is annotated with, in whatever order they are given.", "quantifier": "every list of times in every order", "why_tests_cant": "orders of times that tests do not have", "anchors": ["src/utils/mtev_zipkin.c: mtev_zipkin_span_annotate"]}
{"id": "C133", "title": "Identities in headers survive the way to the server", "statement": "What a client writes into its headers the server reads back as the same trace, parent and identity; a text is refused unless it is a hexadecimal number of 64 bits.", "quantifier": "every 64 bit identity; every text of digits, of any length, with spaces and prefix", "why_tests_cant": "all 2^64 identities, every length of text", "anchors": ["src/utils/mtev_zipkin.c: mtev_zipkin_str_to_id, mtev_zipkin_client_trace_hdr, mtev_zipkin_client_span_hdr, mtev_zipkin_client_parent_hdr", "src/mtev_http.c: mtev_http_begin_span"]}
{"id": "C134", "title": "Spans attached to events live as long as they are held and are published once", "statement": "However a program creates, attaches, copies and frees events and spans, a span is not used after it is freed; it is freed when the last reference to it is given back; a span made for an event or its callback is published, once, when that is over.", "quantifier": "every sequence of calls on any number of spans and events, every sampling decision, every trace level", "why_tests_cant": "who frees what last depends on the whole history; a leak or a double publication shows only in some orders", "anchors": ["src/utils/mtev_zipkin.c: mtev_zipkin_span_ref, mtev_zipkin_span_drop, zipkin_eventer_ctx_free, mtev_zipkin_attach_to_eventer, mtev_zipkin_client_new, zipkin_eventer_callback_prep, zipkin_eventer_callback_cleanup, zipkin_eventer_init, zipkin_eventer_deinit, zipkin_eventer_copy"]}
{"id": "C135", "title": "A coroutine that waits for work goes on when all of it is done, and not before", "statement": "A wait for a gate returns only when no job queued with that gate is still out; it returns at once if none is; while a coroutine waits some job it waits for is out, and the completion of the last one resumes it; a gate is released when its wait is over and never used afterwards.", "quantifier": "every number of coroutines, gates and jobs, every order of queueing, waiting, sleeping and completion", "why_tests_cant": "the counter goes to zero in a different place in every order of completions and waits", "anchors": ["src/eventer/eventer_aco_opset.c: eventer_aco_gate, eventer_aco_gate_wait, eventer_aco_asynch_queue_subqueue_deadline_gated, eventer_aco_simple_asynch_queue_subqueue_gated, eventer_aco_try_run_asynch_queue_subqueue_gated, eventer_aco_run_asynch_queue_subqueue_gated, eventer_aco_asynch_wrapper, eventer_aco_simple_asynch_wrapper, eventer_aco_mode_asynch_wrapper"]}
{"id": "C136", "title": "Calls of a coroutine wait as long as they must and leave nothing behind", "statement": "A read, write or accept in a coroutine gives the first result that is not would-block; while it waits its descriptor is registered for what is asked, with the timeout passed or else the one set for it; when it returns no timer and no descriptor of it is left; a timeout is reported only if the time has passed; a sleep ends when its time has passed.", "quantifier": "every sequence of calls, sleeps, jobs and settings, any number of descriptors, every order of readiness and timers", "why_tests_cant": "whether a timer or a mark is left over shows only in the calls that come later", "anchors": ["src/eventer/eventer_aco_opset.c: eventer_aco_sleep, priv_aco_timeout, eventer_aco_callback_wrapper, eventer_aco_yield, eventer_aco_resume", "src/eventer/eventer_impl.c: eventer_aco_read, eventer_aco_write, eventer_aco_accept, eventer_aco_shutdown"]}
{"id": "C137", "title": "Console output arrives complete, in order and with the line ends of telnet", "statement": "What is written to a console, formatted or not, goes out in order and unchanged, except that on a telnet connection each line feed is preceded by a carriage return; this holds however much the descriptor takes at a time; the buffer is never left.", "quantifier": "every sequence of writes, formatted writes and sends with any number of bytes taken, with and without telnet", "why_tests_cant": "line ends and buffer sizes depend on where the descriptor blocks between writes", "anchors": ["src/mtev_console.c: nc_write_with_lock, nc_telnet_cooker, nc_cmd_vprintf, nc_write, mtev_console_continue_sending", "src/mtev_console_telnet.c: netclear"]}
{"id": "C138", "title": "The tab key offers the commands that fit and only lengthens the word being typed", "statement": "For a line whose earlier words name commands, however quoted, exactly the commands at that place which begin with the word being typed are offered; pressing tab replaces that word by the longest beginning they have in common, followed by a blank if there is only one; nothing else of the line changes, and no line crashes the console.", "quantifier": "every tree of commands, every line up to 31 words, every spelling and quoting of the words", "why_tests_cant": "lines with quotes, abbreviations and nested commands are endless; a test presses tab on a few", "anchors": ["src/mtev_console_complete.c: mtev_console_opt_delegate, mtev_console_completion, noitedit_completion_function, completion_matches, mtev_edit_complete", "src/mtev_tokenizer.c: mtev_tokenize"]}
{"id": "C139", "title": "A compressed download is passed on complete and in order", "statement": "Used as the write function of curl, the helper passes on what the download decompresses to, in order and without gaps, however the download is cut into pieces and however much the function given takes each time; it returns success for good data and an error for bad data.", "quantifier": "every format, every lawful decompressor, every cutting into pieces, every way the function takes the data", "why_tests_cant": "pieces, buffer sizes and partial takes combine without bound", "anchors": ["src/utils/mtev_compress.c: mtev_curl_write_callback, mtev_decompress_create_curl_helper, mtev_stream_decompress, mtev_stream_decompress_init"]}
{"id": "C140", "title": "Idle connections are terminated, active ones are not", "statement": "A connection of a listener with an idle timeout is terminated if there was no traffic for that time (and a bounded time to notice it), and never while there is traffic.", "quantifier": "every timeout, every history of reads, writes, handshake and timer runs, on any threads", "why_tests_cant": "the times of traffic, of the timer and of other threads interleave without bound", "anchors": ["src/mtev_listener.c: mtev_acceptor_timeout, mtev_acceptor_closure_mark_read, mtev_acceptor_closure_mark_write, mtev_acceptor_closure_readwrite_age, mtev_listener_accept_ssl"]}
{"id": "C141", "title": "Every accepted connection is served or closed", "statement": "Each connection taken by a listener is either given to the handler, through TLS exactly if that is configured and on a thread of the pool asked for, or closed with all that was allocated for it.", "quantifier": "every sequence of results of accept, every configuration, every pool", "why_tests_cant": "connections and failures arrive in any order and number", "anchors": ["src/mtev_listener.c: mtev_listener_acceptor, mtev_acceptor_closure_free", "src/eventer/eventer_impl.c: eventer_choose_owner_pool"]}
{"id": "C142", "title": "The name of a TLS peer is the common name of its certificate", "statement": "mtev_acceptor_closure_remote_cn is the common name in the subject of the client's certificate, or nothing if there is none.", "quantifier": "every subject of a certificate", "why_tests_cant": "the fields of a subject are chosen by others", "anchors": ["src/mtev_listener.c: mtev_listener_accept_ssl, mtev_acceptor_closure_remote_cn"]}
{"id": "C143", "title": "The control port runs the handler of the command that was sent", "statement": "The four bytes a client sends first select the handler registered last for that number, however the bytes arrive; a connection with an unknown or incomplete command is closed.", "quantifier": "every command, every registration, every cutting of the bytes into reads and callbacks", "why_tests_cant": "how the bytes arrive is decided by the network", "anchors": ["src/mtev_listener.c: mtev_control_dispatch_as11, mtev_control_dispatch_delegate"]}
{"id": "C144", "title": "A listener listens on its address and removes nothing but an old socket", "statement": "mtev_listener binds the address it is given, reports failure otherwise and then leaves no socket open, and removes the file at a path only if it is a socket.", "quantifier": "every address text, every outcome of the system calls, every mode of a file", "why_tests_cant": "the outcomes of the system calls and what is at the path are outside the program", "anchors": ["src/mtev_listener.c: mtev_listener"]}
{"id": "C145", "title": "Exactly the configured listeners are started", "statement": "A listener section starts a listener exactly if it has a known type and a valid port or path, is not turned off and not skipped; it then has the configured address, port and TLS.", "quantifier": "every section, every list of listeners to skip", "why_tests_cant": "sections, ports and skips combine without bound", "anchors": ["src/mtev_listener.c: mtev_listener_reconfig, mtev_listener_skip, mtev_listener_should_skip"]}
{"id": "C146", "title": "The text of a peer's address is its address", "statement": "mtev_convert_sockaddr_to_buff writes the text of the address if there is room for it, and never more than the buffer holds.", "quantifier": "every address, every buffer size", "why_tests_cant": "addresses are too many to try", "anchors": ["src/mtev_listener.c: mtev_convert_sockaddr_to_buff"]}
{"id": "C147", "title": "Requests on a connection are served in order, each once", "statement": "The requests of an HTTP/1 connection are given to the handler in the order they were sent, each exactly once, with nothing else taken for a request, and their responses complete in the same order.", "quantifier": "every sequence of requests with bodies, every cutting into reads, every behaviour of the handler and of the socket", "why_tests_cant": "how the bytes of several requests fall into reads cannot be controlled from a test", "anchors": ["src/mtev_http1.c: mtev_http1_session_drive, mtev_http1_complete_request, mtev_http1_request_release, mtev_http1_response_release"]}
{"id": "C148", "title": "The websocket client's handshake", "statement": "mtev_websocket_client_new sends a request for the path at the host, and the client becomes ready exactly if the server answers with the accept key, however the bytes of either travel.", "quantifier": "every path, host, service and response, every cutting into writes, reads and callbacks", "why_tests_cant": "the cutting of the bytes is decided by the network", "anchors": ["src/mtev_websocket_client.c: send_reqheader, recv_resheader, mtev_websocket_client_send_handshake, mtev_websocket_client_recv_handshake, mtev_websocket_client_drive"]}
{"id": "C149", "title": "A websocket client exists until it is freed, and not longer", "statement": "Calls on a client are safe until mtev_websocket_client_free, which releases it; a client made without a reference is released when its connection ends.", "quantifier": "every order of calls, callbacks, messages and the end of the connection", "why_tests_cant": "the end of the connection comes at any point among the calls", "anchors": ["src/mtev_websocket_client.c: mtev_websocket_client_new, mtev_websocket_client_new_noref, mtev_websocket_client_cleanup, mtev_websocket_client_free, mtev_websocket_client_send, mtev_websocket_client_is_closed"]}
{"id": "C150", "title": "The disk-backed hash is a map", "statement": "mtev_huge_hash_store, replace, retrieve, delete and size behave as those of a map: a store answers true exactly for a new key, the value stored last is retrieved and can be read, a deleted key is gone, a refused call changes nothing, and every call returns.", "quantifier": "every sequence of calls by any threads, with any keys and values, any sizes and any failures of the database", "why_tests_cant": "what happens depends on the history of calls and on how full the file is", "anchors": ["src/utils/mtev_huge_hash.c: mtev_huge_hash_create, mtev_huge_hash_store, mtev_huge_hash_replace, mtev_huge_hash_retrieve, mtev_huge_hash_delete, mtev_huge_hash_size, map_resize"]}
{"id": "C151", "title": "Iterating over the disk-backed hash", "statement": "An iterator returns every entry the table had when it was made, once, in key order, whatever is stored or deleted meanwhile, and calls made while iterators are open return once these are closed.", "quantifier": "every sequence of calls by any threads before and after the iterator is made", "why_tests_cant": "the interleavings of threads are unbounded", "anchors": ["src/utils/mtev_huge_hash.c: mtev_huge_hash_create_iter, mtev_huge_hash_adv, mtev_huge_hash_destroy_iter, map_resize"]}
{"id": "C152", "title": "Modules are brought up as configured, and failures are counted", "statement": "mtev_dso_init loads every configured module, tells it that it is loaded, configures and initialises it once each, in this order and in the order of the configuration; mtev_dso_load_failures counts the modules for which this failed, and is 0 exactly if there are none.", "quantifier": "every configuration, every set of images and every answer of the modules' callbacks", "why_tests_cant": "the configurations and what modules answer are unbounded", "anchors": ["src/mtev_dso.c: mtev_dso_init, mtev_load_image, mtev_load_generic_image, mtev_load_loader_image, mtev_dso_load_failures"]}
{"id": "C153", "title": "The image of a module is the first along the path", "statement": "A module with a relative image name is loaded from the first of the configured directories, or else the directory of the build, in which its image can be opened; an absolute name is used as it is; the symbol is what follows the last colon of the module's name.", "quantifier": "every list of directories, image name and state of the file system", "why_tests_cant": "paths are unbounded", "anchors": ["src/mtev_dso.c: mtev_load_image"]}
{"id": "C154", "title": "The fast clock runs with the system's and does not go back", "statement": "mtev_get_nanos (and mtev_gethrtime) never returns less than before; after a calibration it is within about 100 nanoseconds of the system's clock; a CPU that cannot be compared for 15 seconds falls back to the system's clock; mtev_gettimeofday, mtev_now_us and mtev_now_ms agree with each other and follow the system's time of day; mtev_time_maintain is safe to call at any time.", "quantifier": "every tick counter, system clock, history of calibrations and caller", "why_tests_cant": "clocks, their jitter and the moments of calibration are not under a test's control", "anchors": ["src/utils/mtev_time.c: mtev_get_nanos, mtev_calibrate_rdtsc_ticks, mtev_gettimeofday, mtev_now_us, mtev_now_ms, mtev_time_maintain, mtev_time_possibly_maintain", "src/utils/mtev_time.h: mtev_time_maintain"]}
{"id": "C155", "title": "The observer shows requests being served and those finished lately", "statement": "With the http_observer module, a request being served is shown while it is; when it is over it is shown with the times of its reading and response and its status, under an id of its own, until max_age seconds have passed or max_count others have finished.", "quantifier": "every interleaving of requests of all sessions, every history and configuration", "why_tests_cant": "interleavings, histories of 2^32 requests and clocks are out of a test's reach", "anchors": ["src/modules/http_observer.c: http_observer_rc, http_observer_prrp, http_observer_rs, http_observer_rl, http_observer_note_dyn, allocate_entry, requests_json_handler", "src/mtev_http.c: mtev_http_log_request"]}
{"id": "C156", "title": "A query to the observer lists the rows that meet its conditions", "statement": "requests.json with eq_<field> and re_<field> arguments lists exactly those requests (live, or finished and not too old) that meet all of them.", "quantifier": "every query, set of rows and matcher of expressions", "why_tests_cant": "queries are unbounded", "anchors": ["src/modules/http_observer.c: requests_json_handler, row_want"]}
{"id": "C157", "title": "A watch of keys in consul misses nothing", "statement": "The witness given to mtev_consul_kv_attach is told the keys and values under its path at each change, and is not called after mtev_consul_kv_detach; fetches are two seconds apart at least.", "quantifier": "every history of changes, answers, failures, timeouts and moments of detaching", "why_tests_cant": "when answers, timeouts and changes come is up to the network", "anchors": ["src/modules/consul.c: mtev_consul_kv_attach_function, mtev_consul_kv_detach_function, mtev_consul_kv_tree_reader, kv_fetch_index"]}
{"id": "C158", "title": "Services are registered and their health is pushed", "statement": "A service is registered or deregistered with consul as last asked for; while it is registered each push check sends its health once per period, with the code last set, and none after deregistering; a service can be looked up by the name it was registered under, and what is looked up stays valid until given back, and the service after that.", "quantifier": "every history of requests, answers and timers, every name", "why_tests_cant": "histories are unbounded", "anchors": ["src/modules/consul.c: mtev_consul_register_f, mtev_consul_complete_service_registration, mtev_consul_push_health, mtev_consul_service_registry_f, service_register_deref, mtev_consul_interp, mtev_consul_health_handler, mtev_consul_set_passing_f"]}
{"id": "C159", "title": "Settings are taken from consul", "statement": "A setting consul:key has the key's value; consul:fallback:key has it, or the fallback when there is none; other settings are not touched.", "quantifier": "every setting and store", "why_tests_cant": "texts are unbounded", "anchors": ["src/modules/consul.c: mtev_consul_conf_fixup, mtev_consul_fetch_config_kv"]}
{"id": "C160", "title": "Messages sent over AMQP are published once and in order", "statement": "What a connection publishes for a sending thread is, in order and with the flags asked for, what that thread sent to the connection or to all: nothing twice, nothing skipped, also when publishes fail and connections are made anew; no message is used after it is freed or freed twice, and once the queues are empty none is left allocated.", "quantifier": "every number of connections up to the limit, every interleaving of sending threads and connection threads, every answer of the library, every id of a connection", "why_tests_cant": "interleavings and failures are unbounded", "anchors": ["src/modules/mtev_amqp.c: mtev_amqp_send_function, mtev_amqp_send_data_function, copy_envelope, drain_outbound_queue, handleconn, rabbitmq_manage_connection, init_conns"]}
{"id": "C161", "title": "Log streams to message brokers go where their path says", "statement": "A log stream of type amqp or fq with the path exchange/route sends its lines to that exchange under route.name, and with a path without a slash to the exchange of that name under mtev.log.name.", "quantifier": "every path and name", "why_tests_cant": "texts are unbounded", "anchors": ["src/modules/mtev_amqp.c: amqp_logio_write", "src/modules/mtev_fq.c: fq_logio_write"]}
{"id": "C162", "title": "Sends and polls of fq are counted and complete", "statement": "A send counts once, as a publication or a drop, on the connection named or on all for a negative id; messages that arrive are handed to the hook once, in order, under the id of their connection, at most poll_limit of a connection at a time, and are counted.", "quantifier": "every list of connections, id, limit and history of arrivals and polls", "why_tests_cant": "histories are unbounded", "anchors": ["src/modules/mtev_fq.c: mtev_fq_send_function, poll_fq, fq_driver_init"]}
{"id": "C163", "title": "Sockets of curl requests are watched as curl asks", "statement": "While requests run inside the event loop, each socket is watched for what curl has last asked for and not at all once curl has given it up; nothing is used after it was freed, and when curl has given up all sockets nothing is left allocated.", "quantifier": "every sequence of calls of curl's socket function, in callbacks of sockets, of timers and outside, with every reuse of descriptors", "why_tests_cant": "the order of callbacks and the reuse of descriptor numbers are unbounded", "anchors": ["src/utils/mtev_curl.c: eventer_curl_handle_socket, eventer_curl_perform, curl_context_deref", "src/eventer/eventer_epoll_impl.c: eventer_epoll_impl_trigger, eventer_epoll_impl_remove_fd"]}
{"id": "C164", "title": "Timeouts of curl requests fire as curl asks", "statement": "The timeout curl has asked for last is pending, due at the time asked for, until it fires or curl takes it back; no other is pending, and no timer is used after it was freed.", "quantifier": "every sequence of calls of curl's timer function, in callbacks of timers and outside, at every time", "why_tests_cant": "sequences are unbounded", "anchors": ["src/utils/mtev_curl.c: eventer_curl_start_timeout, eventer_curl_on_timeout", "src/eventer/eventer_impl.c: eventer_remove_timed"]}
{"id": "C165", "title": "Buffers and numbers are random throughout", "statement": "Filling a buffer with random bytes returns, and then every byte of it is random and the memory behind is as before; the secure variant says so only if it filled the buffer; every number of 64 bits may be drawn.", "quantifier": "every length, every answer of the library's generator, every state of the clock", "why_tests_cant": "lengths are unbounded, and what is never drawn cannot be observed", "anchors": ["src/utils/mtev_rand.c: mtev_rand, mtev_rand_trysecure, mtev_rand_buf, mtev_rand_buf_secure, mtev_rand_buf_trysecure"]}
{"id": "C166", "title": "Maybe buffers are arrays that grow", "statement": "A buffer declared on the stack has room for as many elements as were asked for last or before, keeps what was written when it moves to the heap or grows there, stays on the stack while the declared size is enough, and once freed leaves nothing on the heap.", "quantifier": "every declared size, element size, and sequence of requests for room and writes", "why_tests_cant": "sequences and sizes are unbounded", "anchors": ["src/utils/mtev_maybe_alloc.h: MTEV_MAYBE_DECL, MTEV_MAYBE_REALLOC, MTEV_MAYBE_FREE, MTEV_MAYBE_SIZE"]}
{"id": "C167", "title": "JSON is printed whole whatever its size", "statement": "The text printed for a JSON document is all of its pieces in order, ended by a NUL, however it is cut into pieces; no byte is written outside the buffer, and lack of memory is reported.", "quantifier": "every sequence of pieces of every length, every failure of memory", "why_tests_cant": "lengths are unbounded, and boundaries depend on how the pieces fall", "anchors": ["src/json-lib/mtev_json_printbuf.c: jl_printbuf_new, jl_printbuf_memappend, jl_sprintbuf, jl_printbuf_reset"]}
{"id": "C168", "title": "JSON documents go to files and come back whole", "statement": "A document read from a file is parsed from all of the file's bytes however the reads cut them; writing one returns success only if the descriptor got all of the text, and has written a beginning of it otherwise; what was written is read back the same.", "quantifier": "every text, every way reads and writes are cut, every error", "why_tests_cant": "cuts and lengths are unbounded", "anchors": ["src/json-lib/mtev_json_util.c: mtev_json_object_from_fd, mtev_json_object_to_fd"]}
{"id": "C169", "title": "Spans published reach the Jaeger collector", "statement": "Spans are submitted in the order they were published, each once, in batches of at most the size configured; a span is left out only while the backlog is full; a batch is posted once and then as often again as retries are configured; each span's reference is given back once.", "quantifier": "every interleaving of publishing threads with the submitter, every configuration, every sequence of answers of the collector", "why_tests_cant": "interleavings are unbounded, and the loss shows only after thousands of spans", "anchors": ["src/modules/zipkin_jaeger.c: todo_enqueue, todo_dequeue, zipkin_jaeger_queue, jaeger_publish_thrift, zipking_jaeger_submitter"]}
{"id": "C170", "title": "The capabilities document lists every service", "statement": "The JSON document of capabilities has each service under its address with each of its commands, and each feature with the version registered first; a client of the capabilities service gets the whole document however the writes are cut, or a beginning of it if the connection fails.", "quantifier": "every table of services and commands at every address, every sequence of registrations, every cut and failure of writes", "why_tests_cant": "which addresses the linker and loader choose cannot be tested for", "anchors": ["src/mtev_capabilities_listener.c: mtev_capabilities_tobuff_json, mtev_capabilities_add_feature, mtev_capabilities_handler", "src/json-lib/mtev_json_object.c: mtev_json_object_object_add"]}
{"id": "C171", "title": "The listing of events shows what they wait for", "statement": "Each socket in the listing of events is shown with its descriptor, its mask and the addresses and ports of both ends; each timer with the millisecond at which it is due.", "quantifier": "every event, every address of every family, every time", "why_tests_cant": "addresses are unbounded, and a wrong one looks like a right one", "anchors": ["src/mtev_events_rest.c: json_spit_event"]}
