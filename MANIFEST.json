{
 "claims": [
  {
   "property": "C01",
   "status": "proved",
   "theorems": [
    "Mtev.Url.C01_url_roundtrip",
    "Mtev.Url.C01_url_encode_alphabet",
    "Mtev.Url.C01_url_decode_exact",
    "Mtev.Url.C01_url_encode_injective"
   ],
   "note": "Full statement proved for every byte string."
  },
  {
   "property": "C02",
   "status": "partial",
   "theorems": [
    "Mtev.Url.C02_url_encode_overflow_violated",
    "Mtev.Url.C02_url_encode_bounds_partial",
    "Mtev.Url.C02_url_encode_len_suffices",
    "Mtev.Url.C02_url_decode_bounds",
    "Mtev.Url.C02_url_encode_in_place"
   ],
   "note": "False as stated: with dest_len = 3n and no unreserved input byte the terminating NUL is stored at dest[dest_len] (witness _violated; _partial characterises exactly when this happens and bounds the excess by one byte). Refusal, the documented length function, the decoder bound and the in-place mode are proved."
  },
  {
   "property": "C03",
   "status": "partial",
   "theorems": [
    "Mtev.Url.C03_html_encode_escapes",
    "Mtev.Url.C03_html_encode_no_markup",
    "Mtev.Url.C03_html_encode_bounds",
    "Mtev.Url.C03_html_encode_len_violated",
    "Mtev.Url.C03_html_encode_len_partial"
   ],
   "note": "Escaping, termination and bounds proved in full. The sizing claim is false (mtev_html_encode_len(1)=6 is refused for one '&'); proved with one more byte."
  },
  {
   "property": "C04",
   "status": "proved",
   "theorems": [
    "Mtev.B32.C04_b32_encode_rfc4648",
    "Mtev.B32.C04_b32_roundtrip",
    "Mtev.B32.C04_b32_decode_case_insensitive"
   ],
   "note": "Round trip through RFC 4648 text for every input, and insensitivity to ignored characters and letter case."
  },
  {
   "property": "C05",
   "status": "partial",
   "theorems": [
    "Mtev.B32.C05_b32_decode_overflow_violated",
    "Mtev.B32.C05_b32_decode_bounds_partial"
   ],
   "note": "False as stated: hostile text overruns the destination (witness: 4 bytes into dest_len 0). Proved: stores at most 5n/8 bytes, hence no overrun when dest_len covers that or the text length is a multiple of 8."
  },
  {
   "property": "C06",
   "status": "proved",
   "theorems": [
    "Mtev.B64.C06_b64_encode_rfc4648",
    "Mtev.B64.C06_b64_encode_refuses",
    "Mtev.B64.C06_b64_roundtrip",
    "Mtev.B64.C06_b64_decode_lenient",
    "Mtev.B64.C06_b64_uninitialised_read"
   ],
   "note": "Encoder equals RFC 4648 for any iovec split; decoder inverts it with a destination of exactly the source length, and for any white space placement and URL-safe letters. C06_b64_uninitialised_read records that a one-letter final group reads an uninitialised byte."
  },
  {
   "property": "C07",
   "status": "proved",
   "theorems": [
    "Mtev.B64.C07_b64_decode_bounds"
   ],
   "note": "Proved for every text and every destination size, both paths."
  },
  {
   "property": "C08",
   "status": "proved",
   "theorems": [
    "Mtev.Uuid.C08_uuid_parse_iff",
    "Mtev.Uuid.C08_uuid_parse_in_bounds",
    "Mtev.Uuid.C08_uuid_roundtrip",
    "Mtev.Uuid.C08_uuid_case_insensitive"
   ],
   "note": "Parser accepts exactly the 36-character form (any hex case), never reads beyond the first NUL; print then parse is the identity."
  },
  {
   "property": "C09",
   "status": "partial",
   "theorems": [
    "Mtev.Str.C09_strnstrn_first_partial",
    "Mtev.Str.C09_strnstrn_extremes",
    "Mtev.Str.C09_strnstrn_violated",
    "Mtev.Str.C09_strnstrn_256"
   ],
   "note": "Proved for needles of 1..255 bytes followed by a readable byte. False otherwise: a 256 byte needle overflows the table by one slot for every needle, and the byte after the needle is read (_violated)."
  },
  {
   "property": "C10",
   "status": "partial",
   "theorems": [
    "Mtev.Str.C10_prepend_partial",
    "Mtev.Str.C10_append_partial"
   ],
   "note": "Proved for every history with sizes below 2^27 (int lengths in the code); above that not claimed."
  },
  {
   "property": "C11",
   "status": "partial",
   "theorems": [
    "Mtev.DynBuffer.C11_dyn_buffer_contents_partial",
    "Mtev.DynBuffer.C11_dyn_buffer_maybe",
    "Mtev.DynBuffer.C11_dyn_buffer_terminated",
    "Mtev.DynBuffer.C11_dyn_buffer_detach",
    "Mtev.DynBuffer.C11_dyn_buffer_printf_violated",
    "Mtev.DynBuffer.C11_dyn_buffer_violation_reachable"
   ],
   "note": "Contents, bounds and termination for every history below 512 MiB in total; with 2^31 free bytes add_printf aborts (_violated, with reachability). detach proved without bound."
  },
  {
   "property": "C12",
   "status": "proved",
   "theorems": [
    "Mtev.Sort.C12_merge_sort_sorts",
    "Mtev.Sort.C12_merge_sort_perm"
   ],
   "note": "For every comparator that is a total preorder, the result is sorted and a permutation. The linked-list representation is the list of nodes in next-pointer order."
  },
  {
   "property": "C13",
   "status": "proved",
   "theorems": [
    "Mtev.Hll.C13_hll_alloc",
    "Mtev.Hll.C13_hll_registers",
    "Mtev.Hll.C13_hll_set_semantics",
    "Mtev.Hll.C13_hll_union",
    "Mtev.Hll.C13_hll_sums_antitone"
   ],
   "note": "Register semantics, set semantics (order/duplicates irrelevant), union as merge and monotonicity of the raw sums. Floating point estimation is not modelled."
  },
  {
   "property": "C14",
   "status": "partial",
   "theorems": [
    "Mtev.Confstr.C14_duration_iff",
    "Mtev.Confstr.C14_duration_exact_partial",
    "Mtev.Confstr.C14_duration_overflow_violated",
    "Mtev.Confstr.C14_duration_units"
   ],
   "note": "Accepts exactly the token grammar; value is the sum of clamped numbers mod 2^64. The exactness claim is false on overflow (_violated) and proved when the sum fits 64 bits (_partial)."
  },
  {
   "property": "C15",
   "status": "partial",
   "theorems": [
    "Mtev.Confstr.C15_time_gm_partial",
    "Mtev.Confstr.C15_time_gm_only_stamps",
    "Mtev.Confstr.C15_time_gm_violated"
   ],
   "note": "False for 29 February of years divisible by 100 (witness _violated: 2000-02-29 rejected, 2300-02-29 accepted): proved for all other stamps; only stamps are accepted. strptime is modelled after glibc."
  },
  {
   "property": "C16",
   "status": "partial",
   "theorems": [
    "Mtev.Cht.C16_lookup_distinct",
    "Mtev.Cht.C16_ring_order_partial",
    "Mtev.Cht.C16_empty",
    "Mtev.Cht.C16_unsorted_violated",
    "Mtev.Cht.C16_duplicate_violated",
    "Mtev.Cht.C16_bits31_violated",
    "Mtev.Cht.C16_trim"
   ],
   "note": "Distinctness and count hold for every hash function and all collisions. Order and position hold when hashed points do not pile up at the bottom of the ring (in particular without collisions). Refuted: three points colliding at the lowest position leave an unsorted ring; asking for more nodes than exist returns a duplicate; 31 hash bits is undefined behaviour. The hash function is a parameter; qsort is any sort."
  },
  {
   "property": "C17",
   "status": "partial",
   "theorems": [
    "Mtev.Btrie.C17_longest_match_partial",
    "Mtev.Btrie.C17_delete_covering_violated",
    "Mtev.Btrie.C17_stack_overflow_violated"
   ],
   "note": "Holds for histories that never delete a prefix covering the whole table and, for IPv6, with no /128 route or at most 64 insertions. Violations: deleting the covering route dereferences NULL; 129 nested routes overflow pstack[128]."
  },
  {
   "property": "C18",
   "status": "partial",
   "theorems": [
    "Mtev.Lru.C18_never_over_limit",
    "Mtev.Lru.C18_get_returns_last_put",
    "Mtev.Lru.C18_freed_exactly_once",
    "Mtev.Lru.C18_exact_partial",
    "Mtev.Lru.C18_replace_crash_violated",
    "Mtev.Lru.C18_premature_eviction_violated"
   ],
   "note": "Full statement false of the code: a put of a present key does not decrement lru_cache_size, so M+1 puts of one key dereference NULL (C18_replace_crash_violated, all M) and other histories evict early (C18_premature_eviction_violated). Proved for all histories: limit, last-put, freed exactly once. Proved for all histories without replacing puts: exact equality with the ideal LRU (C18_exact_partial)."
  },
  {
   "property": "C19",
   "status": "proved",
   "theorems": [
    "Mtev.Lfu.C19_exact",
    "Mtev.Lfu.C19_never_over_limit",
    "Mtev.Lfu.C19_get_returns_last_put",
    "Mtev.Lfu.C19_freed_exactly_once",
    "Mtev.Lfu.C19_disabled"
   ],
   "note": "Bounded caches (max > 0) exactly refine the ideal LFU for all histories; max = 0 refuses everything. Unbounded mode is C51. ck_hs is trusted; frequency_list_head is the containing bucket."
  },
  {
   "property": "C20",
   "status": "proved",
   "theorems": [
    "Mtev.Skiplist.C20_ordered_set",
    "Mtev.Skiplist.C20_find"
   ],
   "note": "Order, find, insert and remove proved for all heights and all sequences of calls."
  },
  {
   "property": "C21",
   "status": "proved",
   "theorems": [
    "Mtev.Frrh.C21_get_linearizable",
    "Mtev.Frrh.C21_set_linearizable",
    "Mtev.Frrh.C21_get_only_stored",
    "Mtev.Frrh.C21_hits_le_accesses",
    "Mtev.Frrh.C21_within_table",
    "Mtev.Frrh.C21_set_get_alone"
   ],
   "note": "Concurrent model: n threads, one step per atomic access, arbitrary hash and dice. Lookups and successful sets are linearizable; table bound, counters and single-threaded exactness included. Tables up to 2^32 slots for the linearizability of get (the slot index is truncated to 32 bits)."
  },
  {
   "property": "C22",
   "status": "proved",
   "theorems": [
    "Mtev.Flow.C22_counter_exact",
    "Mtev.Flow.C22_accept_iff_reserved",
    "Mtev.Flow.C22_no_abort",
    "Mtev.Flow.C22_toggles_alternate",
    "Mtev.Flow.C22_single_owner",
    "Mtev.Flow.C22_no_lost_wakeup",
    "Mtev.Flow.C22_raise_alone",
    "Mtev.Flow.C22_lower_alone"
   ],
   "note": "atomic-step model with any number of clients; sequentially consistent atomics"
  },
  {
   "property": "C23",
   "status": "proved",
   "theorems": [
    "Mtev.Plock.C23_exclusion",
    "Mtev.Plock.C23_word_returns_to_zero",
    "Mtev.Plock.C23_uncontended",
    "Mtev.Plock.C23_downgrade"
   ],
   "note": "both word sizes; capacity 5n < 2^(bits/2) as documented in the header; the A operations except try_rtoa may be mixed in"
  },
  {
   "property": "C24",
   "status": "proved",
   "theorems": [
    "Mtev.Sem.C24_permits_conserved",
    "Mtev.Sem.C24_value_exact",
    "Mtev.Sem.C24_wait_returns_with_permit",
    "Mtev.Sem.C24_take_uses_one",
    "Mtev.Sem.C24_no_lost_wakeup"
   ],
   "note": "pthread primitives by specification; value wraps modulo 2^32 after 2^32 outstanding permits"
  },
  {
   "property": "C25",
   "status": "partial",
   "theorems": [
    "Mtev.Intern.C25_handle_stands_for_bytes",
    "Mtev.Intern.C25_equal_iff",
    "Mtev.Intern.C25_in_use_not_reclaimed",
    "Mtev.Intern.C25_count",
    "Mtev.Intern.C25_safe",
    "Mtev.Intern.C25_nothing_leaks",
    "Mtev.Intern.C25_removed_once",
    "Mtev.Intern.C25_length_partial",
    "Mtev.Intern.C25_string_key",
    "Mtev.Intern.C25_blob_key",
    "Mtev.Intern.C25_unterminated_violated",
    "Mtev.Intern.C25_string_or_blob_violated",
    "Mtev.Intern.C25_long_key_violated"
   ],
   "note": "Proved for every interleaving of interns, copies, releases and lookups in pools with extents. Partial: the stored length is the asked one only when a pool holds only strings or only blobs (C25_string_or_blob_violated); keys over 8 MiB match shorter entries (C25_long_key_violated); interning a prefix of a longer string leaves it unterminated (C25_unterminated_violated). Pools without extents are not modelled."
  },
  {
   "property": "C26",
   "status": "partial",
   "theorems": [
    "Mtev.Arena.C26_concurrent_no_overlap",
    "Mtev.Arena.C26_concurrent_every_byte",
    "Mtev.Arena.C26_concurrent_safe",
    "Mtev.Arena.C26_concurrent_bases",
    "Mtev.Arena.C26_records_partial",
    "Mtev.Arena.C26_record_twice_violated",
    "Mtev.Arena.C26_every_byte_accounted",
    "Mtev.Arena.C26_no_overlap",
    "Mtev.Arena.C26_compaction_keeps",
    "Mtev.Arena.C26_safe_partial",
    "Mtev.Arena.C26_alloc_new_piece",
    "Mtev.Arena.C26_compaction_maximal",
    "Mtev.Arena.C26_four_gib_violated",
    "Mtev.Arena.C26_odd_extent_violated"
   ],
   "note": "Proved for sequential histories and for every interleaving of the atomic operations (ArenaConc). Partial: at most 4 GiB of extents and extent sizes that are multiples of four (C26_four_gib_violated, C26_odd_extent_violated); the list of unused records hands out a record twice when two threads pop at once (C26_record_twice_violated)."
  },
  {
   "property": "C27",
   "status": "proved",
   "theorems": [
    "Mtev.Log2.C27_round_down",
    "Mtev.Log2.C27_round_up",
    "Mtev.Log2.C27_edges"
   ],
   "note": "All 32-bit values, by induction on the smearing steps plus the 32 table entries; C27_edges states what happens outside the range."
  },
  {
   "property": "C28",
   "status": "partial",
   "theorems": [
    "Mtev.Hash.C28_map",
    "Mtev.Hash.C28_objects",
    "Mtev.Hash.C28_merge_partial",
    "Mtev.Hash.C28_merge_violated"
   ],
   "note": "ck_hs is an external library and is taken by its contract; the key objects, the comparison callback, and all wrapper logic are modelled at byte level. Calls are atomic. mtev_hash_merge_as_dict is proved for NUL-free terminated keys and refuted for keys with embedded NULs (reads past the copy)."
  },
  {
   "property": "C29",
   "status": "partial",
   "theorems": [
    "Mtev.Logic.C29_formula",
    "Mtev.Logic.C29_truth",
    "Mtev.Logic.C29_missing",
    "Mtev.Logic.C29_string_order",
    "Mtev.Logic.C29_string_compare",
    "Mtev.Logic.C29_int_compare",
    "Mtev.Logic.C29_number_ops_agree",
    "Mtev.Logic.C29_has_predicate",
    "Mtev.Logic.C29_only_mentioned",
    "Mtev.Logic.C29_ne_violated",
    "Mtev.Logic.C29_regex_number_violated",
    "Mtev.Logic.C29_long_value_violated",
    "Mtev.Logic.C29_bad_pattern_violated",
    "Mtev.Logic.C29_huge_strings_violated",
    "Mtev.Logic.C29_exponent_violated"
   ],
   "note": "Formula, missing-variable, string/integer/double comparison and locality theorems are unconditional apart from sizes and NaN. Violated: != between a non-number and a number; regex op with a numeric constant aborts; 128-byte values parse uninitialised memory; bad patterns give null nodes; lengths compared in an int; exponent constants."
  },
  {
   "property": "C30",
   "status": "partial",
   "theorems": [
    "Mtev.Jobq.C30_exactly_once_partial",
    "Mtev.Jobq.C30_order_partial",
    "Mtev.Jobq.C30_fifo_partial",
    "Mtev.Jobq.C30_dequeue_returns_partial",
    "Mtev.Jobq.C30_no_lost_wakeup_partial",
    "Mtev.Jobq.C30_nothing_left_behind_partial",
    "Mtev.Jobq.C30_no_freed_subqueue_partial",
    "Mtev.Jobq.C30_no_starvation_partial",
    "Mtev.Jobq.C30_mode_change_loses_jobs_violated"
   ],
   "note": "All interleavings of producers and consumers at the granularity of lock sections and atomic operations, any number of threads, jobs and subqueues. Conservation, order per subqueue against the relation Serves, dequeue returns a job when one waits, no lost wake-up, nothing left at rest, bounded passing over of a subqueue that uses less than its share of the consumers. Partial: a switch from LIFO to FIFO while jobs wait loses them (C30_mode_change_loses_jobs_violated); fewer than 2^32-1 jobs running. Thread creation and termination, cancellation and shutdown are not modelled."
  },
  {
   "property": "C31",
   "status": "proved",
   "theorems": [
    "Mtev.Jobq.C31_backlog_exact",
    "Mtev.Jobq.C31_accepted_within_limit",
    "Mtev.Jobq.C31_backlog_limit",
    "Mtev.Jobq.C31_refused_not_queued",
    "Mtev.Jobq.C31_refused_only_when_full",
    "Mtev.Jobq.C31_plain_enqueue_is_unlimited"
   ],
   "note": "All interleavings. The limit is constant during a run. Plain eventer_jobq_enqueue does not look at the limit (C31_plain_enqueue_is_unlimited), the property is about eventer_jobq_try_enqueue."
  },
  {
   "property": "C32",
   "status": "proved",
   "theorems": [
    "Mtev.JobDeps.C32_only_when_all_finished",
    "Mtev.JobDeps.C32_at_most_once",
    "Mtev.JobDeps.C32_memory_safe",
    "Mtev.JobDeps.C32_all_delivered",
    "Mtev.JobDeps.C32_completion_order_remark"
   ],
   "note": "All dependency trees, all interleavings of the decrements and of the recursion into the spawning job. Timeouts and cancellation of a running job (which frees the job its dependents point to) are not modelled."
  },
  {
   "property": "C33",
   "status": "partial",
   "theorems": [
    "Mtev.HttpIn.C33_chunked_body_partial",
    "Mtev.HttpIn.C33_truncated_never_done_partial",
    "Mtev.HttpIn.C33_chunked_progress_partial",
    "Mtev.HttpIn.C33_bad_size_line",
    "Mtev.HttpIn.C33_missing_line_end",
    "Mtev.HttpIn.C33_any_stream_safe_partial",
    "Mtev.HttpIn.C33_trailers_violated",
    "Mtev.HttpIn.C33_extensions_violated",
    "Mtev.HttpIn.C33_empty_size_line_violated",
    "Mtev.HttpIn.C33_size_overflow_violated",
    "Mtev.HttpIn.C33_size_skipped_violated",
    "Mtev.HttpIn.C33_long_size_line_violated",
    "Mtev.HttpIn.C33_buffered_bytes_withheld_violated"
   ],
   "note": "Proved for all chunked bodies with size texts of at most 18 digits and chunks below 2 GiB, without extensions and trailers: prefix, completeness, progress, truncation, refusal of bad size lines and missing line ends, and safety for arbitrary streams below 4 GiB. Violated: trailers desynchronise the connection, extensions are refused, an empty size line ends the body, sizes wrap at 2^32 (ffffffff is skipped), a 20-digit size line is or is not understood depending on its place in the buffer, and buffered bytes are withheld until the next chunk arrives."
  },
  {
   "property": "C34",
   "status": "partial",
   "theorems": [
    "Mtev.HttpOut.C34_chunked_response_partial",
    "Mtev.HttpOut.C34_chunked_in_progress_partial",
    "Mtev.HttpOut.C34_verbatim_response_partial",
    "Mtev.HttpOut.C34_completes_partial",
    "Mtev.HttpOut.C34_append_accepted_partial",
    "Mtev.HttpOut.C34_round_trip_partial",
    "Mtev.HttpOut.C34_content_length_cut_violated",
    "Mtev.HttpOut.C34_two_gib_violated"
   ],
   "note": "HttpOut.lean models mtev_http_response_append / append_bchain / flush, the chunk encoder of mtev_http_process_output_bchain with its header back-fill in a bounds-checked block, the choice of framing and _http_perform_write with arbitrary partial writes, would-block and failures. Proved for all call sequences and all write schedules: prefix property, completeness, exact chunk syntax and payload, verbatim transfer when not chunked, completion, refusals, and composition with the C33 decoder. Limited to buffers below 2 GiB; larger ones make the encoder loop (C34_two_gib_violated). A content-length response that passes the automatic flush limit is cut (C34_content_length_cut_violated). Not modelled: compression, header formatting (leader is an arbitrary byte string), the race between the write lock and the output lock."
  },
  {
   "property": "C35",
   "status": "partial",
   "theorems": [
    "Mtev.HttpHead.C35_split_independent_partial",
    "Mtev.HttpHead.C35_request_parsed_partial",
    "Mtev.HttpHead.C35_malformed_refused_partial",
    "Mtev.HttpHead.C35_pipelined_partial",
    "Mtev.HttpHead.C35_split_header_violated",
    "Mtev.HttpHead.C35_split_last_header_violated",
    "Mtev.HttpHead.C35_split_request_line_violated",
    "Mtev.HttpHead.C35_split_end_violated",
    "Mtev.HttpHead.C35_false_end_violated",
    "Mtev.HttpHead.C35_nul_hides_headers_violated"
   ],
   "note": "HttpHead.lean models the receive buffers, the search for the end of the head (with the cross-buffer comparison as written), _fixup_bchain at the level of buffer memory, header extraction and the reading loop. Proved for every head of any bytes, every split over reads and any following bytes: one outcome, leftovers kept, and for well-formed heads the exact method, target, protocol and header values; malformed heads are refused. Holds while the head fits the first buffer (24528 bytes) or is completely in the left-over of the previous request; outside that the property is false: C35_split_header_violated (wrong header values), C35_split_last_header_violated, C35_split_request_line_violated (read outside the buffer), C35_split_end_violated, C35_false_end_violated, C35_nul_hides_headers_violated."
  },
  {
   "property": "C36",
   "status": "proved",
   "theorems": [
    "Mtev.Query.C36_decoding_unique",
    "Mtev.Query.C36_in_place",
    "Mtev.Query.C36_never_grows",
    "Mtev.Query.C36_inverts_encoding",
    "Mtev.Query.C36_nul_truncates"
   ],
   "note": "Memory-level in-place proof, uniqueness, inverse of form encoding, and the truncation by an escaped NUL."
  },
  {
   "property": "C37",
   "status": "partial",
   "theorems": [
    "Mtev.RestAcl.C37_first_match_partial",
    "Mtev.RestAcl.C37_allowed_needs_rule",
    "Mtev.RestAcl.C37_acl_type_violated",
    "Mtev.RestAcl.C37_skipto_violated",
    "Mtev.RestAcl.C37_skipto_earlier_violated",
    "Mtev.RestAcl.C37_bad_pattern_violated",
    "Mtev.RestAcl.C37_long_pattern_violated",
    "Mtev.RestAcl.C37_many_groups_violated",
    "Mtev.RestAcl.C37_bad_network_violated",
    "Mtev.RestAcl.C37_other_family_violated"
   ],
   "note": "First match proved for configurations the code understands, and for every configuration that an allowed request has an allowing rule whose readable attributes hold. False cases each proved: type of an acl ignored, skipto undefined behaviour or ignored, uncompilable or over-long expressions and bad networks dropped or cut (fail open), ten groups never match, IPv4 networks match IPv6 clients with the same leading bits. pcre and inet_pton are parameters; reload races not modelled."
  },
  {
   "property": "C38",
   "status": "partial",
   "theorems": [
    "Mtev.Hooks.C38_invoke_partial",
    "Mtev.Hooks.C38_registered_stays_partial",
    "Mtev.Hooks.C38_defined_partial",
    "Mtev.Hooks.C38_lost_registration_violated",
    "Mtev.Hooks.C38_exists"
   ],
   "note": "Full claim holds if the two plain reads of the list head are one load or registrations do not overlap (_partial); C38_lost_registration_violated is the lost hook when they do."
  },
  {
   "property": "C39",
   "status": "proved",
   "theorems": [
    "Mtev.Json.C39_string_roundtrip"
   ],
   "note": "Proved for every NUL free byte string as array element, member value and member key (a bare string is refused by the tokener, see C64)."
  },
  {
   "property": "C40",
   "status": "partial",
   "theorems": [
    "Mtev.Json.C40_pieces_partial",
    "Mtev.Json.C40_first_answer_partial",
    "Mtev.Json.C40_no_undefined",
    "Mtev.Json.C40_blank_first_violated",
    "Mtev.Json.C40_empty_piece_violated",
    "Mtev.Json.C40_trailing_comment_violated",
    "Mtev.Json.C40_nul_violated"
   ],
   "note": "Pieces give the same error and tree as the whole text when the first piece is not blank, no later piece is empty and there is no NUL; the caller that stops at the first answer agrees except for a bad comment after the tree. Each excluded case has a concrete counterexample (_violated). No call sequence reaches undefined behaviour in the modelled machine (C40_no_undefined); print buffer growth and allocation failure are not modelled."
  },
  {
   "property": "C41",
   "status": "partial",
   "theorems": [
    "Mtev.Timers.C41_safe",
    "Mtev.Timers.C41_not_early",
    "Mtev.Timers.C41_exactly_once",
    "Mtev.Timers.C41_pending_once",
    "Mtev.Timers.C41_in_order",
    "Mtev.Timers.C41_dispatch",
    "Mtev.Timers.C41_all_due",
    "Mtev.Timers.C41_sleep",
    "Mtev.Timers.C41_remove",
    "Mtev.Timers.C41_stale_clock_violated",
    "Mtev.Timers.C41_update_race_violated"
   ],
   "note": "Proved for all interleavings of other threads with the dispatch loop under the caller contract (Allowed): never early, exactly once, in order per round, everything due is dispatched, sleep bounded from the last clock reading. False in two ways, each with a witness: the sleep is measured from a clock reading taken before the last callback; rescheduling an event from another thread while its callback runs aborts or leaves a freed event listed."
  },
  {
   "property": "C42",
   "status": "partial",
   "theorems": [
    "Mtev.Str.C42_strlcpy_partial",
    "Mtev.Str.C42_strlcpy_violated",
    "Mtev.Str.C42_strlcat_partial",
    "Mtev.Str.C42_strlcat_violated"
   ],
   "note": "strlcpy proved for size>0 (size 0 stores a byte: _violated); strlcat for size<2^31 (int truncation above: _violated)."
  },
  {
   "property": "C43",
   "status": "partial",
   "theorems": [
    "Mtev.LogRing.C43_write_safe",
    "Mtev.LogRing.C43_lines_since_partial",
    "Mtev.LogRing.C43_small_lines",
    "Mtev.LogRing.C43_memory_lines_violated",
    "Mtev.LogRing.C43_stuck_violated",
    "Mtev.LogRing.C43_reader_overrun_violated",
    "Mtev.LogRing.C43_garbage_violated",
    "Mtev.LogRing.C43_no_slots_violated",
    "Mtev.LogRing.C43_line_numbers_violated"
   ],
   "note": "Proved for all histories without refused writes and, unconditionally, when lines are at most a quarter of the segment; writing is always memory safe. Violated after a refused write (reader overrun, garbage, stuck ring), for the count-based reader (one line short), for line numbers beyond 2^31, for zero slots."
  },
  {
   "property": "C44",
   "status": "proved",
   "theorems": [
    "Mtev.Uuid.C44_uuid_generate_v4"
   ],
   "note": "Proved for all 16-byte inputs."
  },
  {
   "property": "C45",
   "status": "partial",
   "theorems": [
    "Mtev.Sort.C45_merge_sort_reverses_ties_partial",
    "Mtev.Sort.C45_merge_sort_stable_violated"
   ],
   "note": "False: equal elements come out exactly reversed (C45_merge_sort_reverses_ties_partial holds for every list and comparator)."
  },
  {
   "property": "C46",
   "status": "proved",
   "theorems": [
    "Mtev.Confstr.C46_boolean_iff"
   ],
   "note": "Proved for all strings."
  },
  {
   "property": "C47",
   "status": "proved",
   "theorems": [
    "Mtev.Str.C47_strndup"
   ],
   "note": "Proved."
  },
  {
   "property": "C48",
   "status": "partial",
   "theorems": [
    "Mtev.Str.C48_to_string_terminated_partial",
    "Mtev.Str.C48_to_string_violated"
   ],
   "note": "False when the pieces fill the buffer exactly (_violated); proved otherwise."
  },
  {
   "property": "C49",
   "status": "partial",
   "theorems": [
    "Mtev.Plock.C49_atomic_partial",
    "Mtev.Plock.C49_rtoa_violated"
   ],
   "note": "false of pl_try_rtoa: its failure path re-adds R without checking for a writer that was admitted in between; proved without that operation"
  },
  {
   "property": "C50",
   "status": "proved",
   "theorems": [
    "Mtev.HeavyLock.C50_heavy_exclusion",
    "Mtev.HeavyLock.C50_heavy_progress"
   ],
   "note": "pthread primitives by specification"
  },
  {
   "property": "C51",
   "status": "partial",
   "theorems": [
    "Mtev.Cache.C51_unbounded_lru_partial",
    "Mtev.Cache.C51_unbounded_replace_violated"
   ],
   "note": "False of the code for replacing puts (both caches, any key and values). Proved for the LRU on all histories without them."
  },
  {
   "property": "C52",
   "status": "partial",
   "theorems": [
    "Mtev.Cache.C52_values_returned_partial",
    "Mtev.Cache.C52_leak_violated"
   ],
   "note": "False of the code: touch in the LFU drops the emptied bucket when the next bucket exists; an unbounded LRU forgets entries on invalidate. Proved: all values of bounded caches are freed exactly once."
  },
  {
   "property": "C53",
   "status": "partial",
   "theorems": [
    "Mtev.Frrh.C53_freed_once",
    "Mtev.Frrh.C53_deferred_safe",
    "Mtev.Frrh.C53_immediate_free_violated"
   ],
   "note": "Frees proved for all interleavings; safe under deferred reclamation; C53_immediate_free_violated is the use after free with the default free()."
  },
  {
   "property": "C54",
   "status": "partial",
   "theorems": [
    "Mtev.Frrh.C54_layout",
    "Mtev.Frrh.C54_unaligned_violated"
   ],
   "note": "Proved for 8-aligned allocations; C54_unaligned_violated shows an allocator with smaller alignment makes the data overrun the entry."
  },
  {
   "property": "C55",
   "status": "proved",
   "theorems": [
    "Mtev.Query.C55_query_roundtrip",
    "Mtev.Query.C55_empty_pieces_ignored",
    "Mtev.Query.C55_no_query",
    "Mtev.Query.C55_keys_nodup"
   ],
   "note": "Path, raw query, first value per key, unique keys."
  },
  {
   "property": "C56",
   "status": "partial",
   "theorems": [
    "Mtev.Btrie.C56_delete_partial",
    "Mtev.Btrie.C56_phantom_delete_violated"
   ],
   "note": "Violated: deleting a prefix that only exists as an internal branch node returns 1."
  },
  {
   "property": "C57",
   "status": "proved",
   "theorems": [
    "Mtev.Skiplist.C57_neighbors"
   ],
   "note": "Proved for every history of operations, every sequence of random heights and every lawful comparator, through the list's own comparator and each index."
  },
  {
   "property": "C58",
   "status": "partial",
   "theorems": [
    "Mtev.Skiplist.C58_add_index_partial",
    "Mtev.Skiplist.C58_second_index_violated",
    "Mtev.Skiplist.C58_lost_elements_violated"
   ],
   "note": "Violated on non-empty lists when another index sorts before the new one (NULL dereference, or elements missing)."
  },
  {
   "property": "C59",
   "status": "partial",
   "theorems": [
    "Mtev.Cht.C59_share_partial"
   ],
   "note": "Exact rational arithmetic instead of double; same no-pile-up hypothesis as C16."
  },
  {
   "property": "C60",
   "status": "proved",
   "theorems": [
    "Mtev.HttpIn.C60_fixed_length_body",
    "Mtev.HttpIn.C60_fixed_length_progress"
   ],
   "note": "Uncompressed bodies; content length non-negative. A zero-length request for bytes is excluded (it returns 0 at once)."
  },
  {
   "property": "C61",
   "status": "partial",
   "theorems": [
    "Mtev.HttpHead.C61_body_framing_partial",
    "Mtev.HttpHead.C61_chunked_spelling_violated",
    "Mtev.HttpHead.C61_bad_length_violated"
   ],
   "note": "Proved for well-formed heads in the scope of C35; spelling variants of chunked and malformed lengths are accepted with the wrong framing (C61_chunked_spelling_violated, C61_bad_length_violated)."
  },
  {
   "property": "C62",
   "status": "partial",
   "theorems": [
    "Mtev.Arena.C62_alloc_answered_partial",
    "Mtev.Arena.C62_alloc_never_returns_violated"
   ],
   "note": "Proved for extents whose size is a power of two; for other sizes a request larger than the largest power of two in the extent maps extents forever (C62_alloc_never_returns_violated)."
  },
  {
   "property": "C63",
   "status": "partial",
   "theorems": [
    "Mtev.RestRoute.C63_dispatch_partial",
    "Mtev.RestRoute.C63_expected_unique",
    "Mtev.RestRoute.C63_requests_independent_partial",
    "Mtev.RestRoute.C63_stale_handler_violated",
    "Mtev.RestRoute.C63_options_partial",
    "Mtev.RestRoute.C63_websocket_partial",
    "Mtev.RestRoute.C63_websocket_auth_violated",
    "Mtev.RestRoute.C63_websocket_memo_violated",
    "Mtev.RestRoute.C63_many_groups_violated"
   ],
   "note": "Proved for plain requests with expressions of at most nine groups. False: expressions with ten or more groups never match; a handler that ends its response after returning also gets the next request of the connection unrouted and unauthorized; websocket endpoints registered with an authorizer are served without asking it; a refused first websocket message leaves the handler remembered, so later messages are served."
  },
  {
   "property": "C64",
   "status": "partial",
   "theorems": [
    "Mtev.Json.C64_accepts_partial",
    "Mtev.Json.C64_formfeed_violated",
    "Mtev.Json.C64_upper_hex_violated",
    "Mtev.Json.C64_upper_exponent_violated",
    "Mtev.Json.C64_surrogates_violated",
    "Mtev.Json.C64_scalar_violated",
    "Mtev.Json.C64_big_integer_violated",
    "Mtev.Json.C64_depth_violated",
    "Mtev.Json.C64_nul_violated",
    "Mtev.Json.C64_lax_violated"
   ],
   "note": "Acceptance with the right meaning is proved for all array and object texts with lower case hex escapes, no \\f, no \\u0000, 64 bit integers, lower case exponents and at most 31 inner levels. Each excluded form has a counterexample: form feed, upper case hex, upper case exponent, surrogate pairs, bare scalars, big integers, depth, NUL; and texts that are not JSON are accepted (C64_lax_violated). Double conversion (sscanf) is a parameter."
  },
  {
   "property": "C65",
   "status": "partial",
   "theorems": [
    "Mtev.Json.C65_print_parse_partial"
   ],
   "note": "Proved for all trees with NUL free strings and keys, integers in 64 bit range, distinct keys, at most 31 inner levels; doubles only when their printed form reads back (the %lf text and sscanf are parameters). Deeper trees are printed but refused (C64_depth_violated)."
  },
  {
   "property": "C66",
   "status": "partial",
   "theorems": [
    "Mtev.Logic.C66_parse_partial",
    "Mtev.Logic.C66_meaning_partial",
    "Mtev.Logic.C66_space_before_comma_violated",
    "Mtev.Logic.C66_no_tree_violated",
    "Mtev.Logic.C66_trailing_violated",
    "Mtev.Logic.C66_exponent_violated",
    "Mtev.Logic.C66_nul_violated",
    "Mtev.Logic.C66_pattern_violated"
   ],
   "note": "Acceptance and meaning are proved for all expressions, depths and spellings except white space between a comparison that is a second or later argument and the comma after it (refused: C66_space_before_comma_violated). The refusal half is false: names, unfinished expressions and the empty text give a tree without root whose execution dereferences NULL; text after an expression is ignored when it was looked at; of two expressions the last counts; an exponent without point makes the integer before it; an escaped NUL ends a string; a bad pattern gives a NULL node."
  },
  {
   "property": "C67",
   "status": "partial",
   "theorems": [
    "Mtev.EvFd.C67_callbacks_exclude",
    "Mtev.EvFd.C67_no_self_deadlock",
    "Mtev.EvFd.C67_idle_unlocked",
    "Mtev.EvFd.C67_deadlock_violated"
   ],
   "note": "Exclusion, absence of self-deadlock and the release of all locks are proved for every program and schedule. The last half sentence is false: two callbacks in two threads that each remove the other's descriptor wait for each other for ever (C67_deadlock_violated)."
  },
  {
   "property": "C68",
   "status": "partial",
   "theorems": [
    "Mtev.EvFd.C68_started_by_owner",
    "Mtev.EvFd.C68_runs_in_owner",
    "Mtev.EvFd.C68_interest",
    "Mtev.EvFd.C68_interest_in_callback",
    "Mtev.EvFd.C68_masks_agree",
    "Mtev.EvFd.C68_no_abort_partial",
    "Mtev.EvFd.C68_removed_once",
    "Mtev.EvFd.C68_stale_report_violated",
    "Mtev.EvFd.C68_removed_by_other_violated",
    "Mtev.EvFd.C68_replaced_violated"
   ],
   "note": "Owner, registration, interest and single hand-back are proved. The process can be aborted: an entry left in the array of epoll_wait for a descriptor number that was removed by an earlier callback and registered again by another thread is fatal (C68_stale_report_violated); C68_no_abort_partial shows this and the removal of an event with mask 0 are the only ways. C68_removed_by_other_violated and C68_replaced_violated show that two of the rules are needed: after eventer_remove_fd returned to a thread that does not own the event its callback may still start, and a callback that put another event in its place and returns a mask changes the other event's interest."
  },
  {
   "property": "C69",
   "status": "partial",
   "theorems": [
    "Mtev.JsonStore.C69_object_partial",
    "Mtev.JsonStore.C69_returns_partial",
    "Mtev.JsonStore.C69_present_returns",
    "Mtev.JsonStore.C69_members",
    "Mtev.JsonStore.C69_lookup_never_ends_violated",
    "Mtev.JsonStore.C69_array",
    "Mtev.JsonStore.C69_negative_index_violated"
   ],
   "note": "Contents proved for every hash function and history; every call returns when at most four members are deleted over the life of the object, and always for names that are present. False in general: freed slots are never turned back into empty ones and the load check counts live members only, so after five deletions a lookup of an absent name can run for ever (C69_lookup_never_ends_violated: 16 adds and 5 deletions of one-letter names). Array indices below zero are not rejected (C69_negative_index_violated)."
  },
  {
   "property": "C70",
   "status": "partial",
   "theorems": [
    "Mtev.Heartbeat.C70_sends",
    "Mtev.Heartbeat.C70_fits",
    "Mtev.Heartbeat.C70_composes",
    "Mtev.Heartbeat.C70_round_trip",
    "Mtev.Heartbeat.C70_delivers_partial",
    "Mtev.Heartbeat.C70_stays_in_buffers",
    "Mtev.Heartbeat.C70_stuck_violated",
    "Mtev.Heartbeat.C70_stale_violated",
    "Mtev.Heartbeat.C70_indeterminate_violated"
   ],
   "note": "Round trip, order and absence of buffer overruns proved for an arbitrary cipher with the laws of AES-CBC; the overrun theorem covers every hostile input. The rest needs sane datagrams: a datagram announcing fewer than 16 bytes is refused by recvmsg (EINVAL) and never consumed, so the event loop spins for ever (C70_stuck_violated); a datagram decrypting to fewer than 16 bytes makes the handler look at stale or unwritten bytes (C70_stale_violated, C70_indeterminate_violated)."
  },
  {
   "property": "C71",
   "status": "partial",
   "theorems": [
    "Mtev.Cluster.C71_attach",
    "Mtev.Cluster.C71_message_partial",
    "Mtev.Cluster.C71_where",
    "Mtev.Cluster.C71_payload_partial",
    "Mtev.Cluster.C71_wrong_bytes_violated",
    "Mtev.Cluster.C71_absent_violated",
    "Mtev.Cluster.C71_invented_violated",
    "Mtev.Cluster.C71_count_violated"
   ],
   "note": "The message round trip is proved for fewer than 256 payloads (the count has eight bits: C71_count_violated). The lookup is proved right for payloads as long as the first one; otherwise mtev_cluster_get_heartbeat_payload adds the length of the next table entry instead of the present one and returns other bytes (C71_wrong_bytes_violated), and for an absent key it leaves the table: it reads outside the message or takes payload bytes for an entry (C71_absent_violated, C71_invented_violated)."
  },
  {
   "property": "C72",
   "status": "partial",
   "theorems": [
    "Mtev.Cluster.C72_oldest_is_oldest_partial",
    "Mtev.Cluster.C72_oldest_known_partial",
    "Mtev.Cluster.C72_one_oldest",
    "Mtev.Cluster.C72_silence",
    "Mtev.Cluster.C72_milliseconds",
    "Mtev.Cluster.C72_learns",
    "Mtev.Cluster.C72_told",
    "Mtev.Cluster.C72_unknown",
    "Mtev.Cluster.C72_dead_oldest_violated",
    "Mtev.Cluster.C72_clash_violated"
   ],
   "note": "Proved for runs in which no other node announces the boot time of this one and contact is not lost to all nodes at once. Otherwise: after all nodes timed out (for instance when the process was stopped) the last node of the list is kept as oldest although dead, and heartbeats of other nodes never replace it because no boot time is earlier than 0 (C72_dead_oldest_violated); on equal boot times the oldest node is not recomputed (C72_clash_violated). Death, hooks and learning are proved without these conditions."
  },
  {
   "property": "C73",
   "status": "partial",
   "theorems": [
    "Mtev.ClusterOwn.C73_owners_partial",
    "Mtev.ClusterOwn.C73_cap_violated",
    "Mtev.ClusterOwn.C73_first_owner_partial",
    "Mtev.ClusterOwn.C73_newest",
    "Mtev.ClusterOwn.C73_agree"
   ],
   "note": "Proved for up to 256 owners; the lookup silently limits the number to 256 (C73_cap_violated). qsort is an arbitrary correct sort used by all nodes; identities in a configuration are assumed different."
  },
  {
   "property": "C74",
   "status": "partial",
   "theorems": [
    "Mtev.Slz.C74_oneshot_partial",
    "Mtev.Slz.C74_stream_partial",
    "Mtev.Slz.C74_flush_once",
    "Mtev.Slz.C74_nothing_violated",
    "Mtev.Slz.C74_large_violated"
   ],
   "note": "Proved for every division into pieces of at most 65535 bytes, both formats, against a decompressor written from the RFCs (Inflate.lean). False above 65535 bytes in one call: copy_lit (slz.c:314-335) does not advance its pointer, so the second stored block repeats the beginning of the run (C74_large_violated holds for every input of 65539 to 131070 bytes without a repeated four-byte word and with 52 bytes above 143). False for a stream to which nothing was given: the flush fails (C74_nothing_violated). x86_64 variant only. Not claimed: under Content-Encoding: deflate HTTP expects the zlib format (RFC 1950), the code sends raw deflate."
  },
  {
   "property": "C75",
   "status": "partial",
   "theorems": [
    "Mtev.Slz.C75_growth",
    "Mtev.Slz.C75_growth_oneshot",
    "Mtev.Slz.C75_oneshot_partial",
    "Mtev.Slz.C75_oneshot_violated",
    "Mtev.Slz.C75_call",
    "Mtev.Slz.C75_flush",
    "Mtev.Slz.C75_http_gzip",
    "Mtev.Slz.C75_http_deflate_violated"
   ],
   "note": "False: 51 bytes above 143 overflow the buffer of mtev_compress_gzip, a 279-byte input that of mtev_compress_deflate, and one stream call of 334 bytes the buffer the HTTP server takes from mtev_compress_bound for deflate (zlib's compressBound assumes stored blocks). Proved: the exact worst-case growth (nine bits per byte plus a constant; eight bits per byte plus two bits for every byte above 143) for every history and size; that the gzip buffer of the HTTP server is large enough given deflateBound(NULL, n) >= n + n/8; that the allocated buffers suffice for data with at most six bytes above 143."
  },
  {
   "property": "C76",
   "status": "partial",
   "theorems": [
    "Mtev.Cookie.C76_check_exact",
    "Mtev.Cookie.C76_roundtrip_partial",
    "Mtev.Cookie.C76_issue_failed",
    "Mtev.Cookie.C76_stamp",
    "Mtev.Cookie.C76_unforgeable",
    "Mtev.Cookie.C76_no_cookie",
    "Mtev.Cookie.C76_long_user_violated",
    "Mtev.Cookie.C76_domain",
    "Mtev.Cookie.C76_domain_none",
    "Mtev.Cookie.C76_login_form",
    "Mtev.Cookie.C76_login_blank_violated",
    "Mtev.Cookie.C76_redirect"
   ],
   "note": "The hash is a parameter. Proved: the exact acceptance condition, round trip of issued cookies for names of up to 255 bytes, unforgeability relative to the hash, the domain attribute, and the form fields without '+'. Violated: the length of a name is kept in one byte, so a user whose name is 256 bytes longer is taken for another; '+' in a posted form is not a blank and cuts the field."
  },
  {
   "property": "C77",
   "status": "partial",
   "theorems": [
    "Mtev.RespHead.C77_head_partial",
    "Mtev.RespHead.C77_injection_violated",
    "Mtev.RespHead.C77_refused_encoding_violated",
    "Mtev.RespHead.C77_long_reason_violated"
   ],
   "note": "Proved for texts without line breaks and reasons up to 32000 bytes. Violated: line breaks in a value are sent as they are, and the login page takes such a value from the client; a reason of 32690 bytes or more leads to a write beyond the buffer; an encoding the client refuses with q=0 is used."
  },
  {
   "property": "C78",
   "status": "partial",
   "theorems": [
    "Mtev.Rev.C78_end_to_end_partial",
    "Mtev.Rev.C78_complete",
    "Mtev.Rev.C78_reuse_violated",
    "Mtev.Rev.C78_hostile_peer",
    "Mtev.Rev.C78_debug_violated",
    "Mtev.Rev.C78_reconnect_partial",
    "Mtev.Rev.C78_reconnect_violated"
   ],
   "note": "Proved for two ends and all histories: no undefined behaviour, each endpoint is given a prefix of what the other sent while a channel number is used once (C78_end_to_end_partial), all of it when nothing is in flight (C78_complete); a hostile peer cannot cause undefined behaviour or more than 65530 buffered bytes with debug logging off (C78_hostile_peer); a client that lost its connection at rest starts afresh (C78_reconnect_partial). False of the code: data of a closed channel reach the next user of its number (C78_reuse_violated); the debug message prints channels[512..] before the check (C78_debug_violated); after a lost connection the client reuses the structure with a freed buffer, a dangling queue tail and an unchecked header (C78_reconnect_violated). Handlers are atomic; races of mtev_reverse_socket_connect (it holds only a read lock) are not modelled."
  },
  {
   "property": "C79",
   "status": "partial",
   "theorems": [
    "Mtev.RevAcc.C79_request",
    "Mtev.RevAcc.C79_too_long",
    "Mtev.RevAcc.C79_granted",
    "Mtev.RevAcc.C79_cn_partial",
    "Mtev.RevAcc.C79_cn_violated",
    "Mtev.RevAcc.C79_registered_partial",
    "Mtev.RevAcc.C79_evict_violated",
    "Mtev.RevAcc.C79_hang_violated",
    "Mtev.RevAcc.C79_ends_partial"
   ],
   "note": "Proved: the request is cut exactly at the first blank line for every arrival of bytes (C79_request), and the 4096 byte limit (C79_too_long); whoever is found under an identifier was granted it (C79_granted), with the certificate of that name if no certificate name contains # (C79_cn_partial); what is up stays registered while no refused request names it (C79_registered_partial). False of the code: the # is cut off after the comparison (C79_cn_violated); a refused request deletes the entry of the identifier it asked for (C79_evict_violated); end of file during the request is an endless loop (C79_hang_violated; C79_ends_partial otherwise). X-Bind proxies are not modelled."
  },
  {
   "property": "C80",
   "status": "partial",
   "theorems": [
    "Mtev.RevAcc.C80_bounds",
    "Mtev.RevAcc.C80_doubling",
    "Mtev.RevAcc.C80_intervals_partial",
    "Mtev.RevAcc.C80_reset_violated",
    "Mtev.RevAcc.C80_limits_violated"
   ],
   "note": "Proved: bounds (C80_bounds) and exact doubling (C80_doubling) when the initial interval does not exceed the maximum. False of the code: nothing resets the delay after a success (C80_reset_violated), and an initial interval above the maximum, a negative or a zero maximum escape the limits (C80_limits_violated)."
  },
  {
   "property": "C81",
   "status": "partial",
   "theorems": [
    "Mtev.Smr.C81_readers_partial"
   ],
   "note": "Proved for all histories (C81_readers_partial), for every address reuse by malloc, if the first use of the library on a thread is not inside a coroutine (otherwise see C82). ck_epoch is modelled by its contract (synchronize returns after all sections open at the call have ended; poll dispatches only entries older than all open sections); steps are sequentially consistent."
  },
  {
   "property": "C82",
   "status": "partial",
   "theorems": [
    "Mtev.Smr.C82_defined_partial",
    "Mtev.Smr.C82_address_reuse_violated",
    "Mtev.Smr.C82_first_use_in_coroutine_violated"
   ],
   "note": "Proved (C82_defined_partial): no undefined behaviour and no assertion other than the double free report, if no list address is reused and the first use on a thread is not inside a coroutine. False of the code otherwise: the collector compares the last list by address, so a reused address makes it free the queue before its owner is done (C82_address_reuse_violated); mtev_memory_init_epoch inside a coroutine leaves the main stack without a section (C82_first_use_in_coroutine_violated)."
  },
  {
   "property": "C83",
   "status": "partial",
   "theorems": [
    "Mtev.Smr.C83_once",
    "Mtev.Smr.C83_double_free",
    "Mtev.Smr.C83_kept_partial",
    "Mtev.Smr.C83_open_section_violated",
    "Mtev.Smr.C83_handshake_violated"
   ],
   "note": "Proved for all histories: at most once and only if asked (C83_once), double frees abort (C83_double_free), nothing is forgotten while no thread has ended (C83_kept_partial). False of the code: a thread that ends inside a section opened once forgets its blocks for good (C83_open_section_violated: begin_end > 1 should be >= 1); if the collector handles the last list between its being queued and counted, the queue is never drained (C83_handshake_violated)."
  },
  {
   "property": "C84",
   "status": "partial",
   "theorems": [
    "Mtev.Smr.C84_barrier_partial",
    "Mtev.Smr.C84_asynch_partial",
    "Mtev.Smr.C84_returned",
    "Mtev.Smr.C84_try_violated",
    "Mtev.Smr.C84_collector_violated"
   ],
   "note": "Proved: a barrier with no section open frees all pending and returned blocks (C84_barrier_partial), so do asynchronous maintenance, collector and next maintenance (C84_asynch_partial; existence of a schedule, not fairness), and any maintenance frees what was returned (C84_returned). False of the code: a failed try clears the flag, so later maintenance does nothing until the next free (C84_try_violated); blocks freed by cleanup functions on the collector thread stay for ever (C84_collector_violated)."
  },
  {
   "property": "C85",
   "status": "partial",
   "theorems": [
    "Mtev.FileServe.C85_confined_partial",
    "Mtev.FileServe.C85_sibling_violated",
    "Mtev.FileServe.C85_served_partial",
    "Mtev.FileServe.C85_index_partial",
    "Mtev.FileServe.C85_trailing_slash_violated",
    "Mtev.FileServe.C85_refused_partial",
    "Mtev.FileServe.C85_missing",
    "Mtev.FileServe.C85_defined_partial",
    "Mtev.FileServe.C85_dot_violated",
    "Mtev.FileServe.C85_type_partial",
    "Mtev.FileServe.C85_type_violated"
   ],
   "note": "Proved for every file system: what is sent is a real file below the root if no directory next to the root is named like it with one more character (C85_confined_partial); such files are sent (C85_served_partial, C85_index_partial); other places are refused (C85_refused_partial); defined unless the request leads to the root itself (C85_defined_partial); types follow extensions (C85_type_partial). False of the code: a sibling directory named root plus one character is served (C85_sibling_violated); a root written with a slash at its end refuses its files (C85_trailing_slash_violated); a request for the root itself looks behind the end of the resolved path (C85_dot_violated); a name without a dot is typed by its rest behind the first character (C85_type_violated). Races with changes of the file system are not modelled."
  },
  {
   "property": "C86",
   "status": "partial",
   "theorems": [
    "Mtev.Token.C86_words",
    "Mtev.Token.C86_quotable",
    "Mtev.Token.C86_round_trip",
    "Mtev.Token.C86_missing_quote_partial",
    "Mtev.Token.C86_missing_quote_violated",
    "Mtev.Token.C86_leading_blank_violated",
    "Mtev.Token.C86_in_place",
    "Mtev.Token.C86_room"
   ],
   "note": "Proved: C86_words for every spelling, C86_quotable, C86_round_trip, C86_room, C86_in_place, and a missing double quote is an error (C86_missing_quote_partial). False of the code: an unfinished single quote, or a backslash at the end inside double quotes, drops the word silently (C86_missing_quote_violated); an escaped blank as first character ends the word (C86_leading_blank_violated)."
  },
  {
   "property": "C87",
   "status": "partial",
   "theorems": [
    "Mtev.LogGraph.C87_routed_partial",
    "Mtev.LogGraph.C87_asking_partial",
    "Mtev.LogGraph.C87_repaired",
    "Mtev.LogGraph.C87_returns_partial",
    "Mtev.LogGraph.C87_cycle_violated",
    "Mtev.LogGraph.C87_on_fd_violated",
    "Mtev.LogGraph.C87_late_type_violated",
    "Mtev.LogGraph.C87_hidden_attribute_violated",
    "Mtev.LogGraph.C87_span_violated"
   ],
   "note": "Proved for every history and graph: C87_routed_partial (exactly the ways), C87_asking_partial, C87_repaired (one mtev_log_stream_new repairs whatever went before), C87_returns_partial (graphs without loops within the stack's depth). False of the code: making a loop never returns (C87_cycle_violated); streams made on a descriptor or with a type registered late lose lines until the next stream is made (C87_on_fd_violated, C87_late_type_violated); a caller's attribute can pretend to be a built in one (C87_hidden_attribute_violated); a filter on span attributes refuses lines that have them (C87_span_violated)."
  },
  {
   "property": "C88",
   "status": "partial",
   "theorems": [
    "Mtev.LogFmt.C88_split",
    "Mtev.LogFmt.C88_whole",
    "Mtev.LogFmt.C88_room",
    "Mtev.LogFmt.C88_signal_partial",
    "Mtev.LogFmt.C88_signal_violated",
    "Mtev.LogFmt.C88_timestamp",
    "Mtev.LogFmt.C88_place_partial",
    "Mtev.LogFmt.C88_place_violated",
    "Mtev.LogFmt.C88_result_violated"
   ],
   "note": "Proved: C88_split, C88_whole, C88_room, C88_timestamp for everything; C88_signal_partial up to 16384 bytes and C88_place_partial up to 63 bytes. False of the code: longer records in signal handlers read past the buffer (C88_signal_violated); long places are cut in the middle with the bracket lost (C88_place_violated); the result is 0 or -1, and -1 for completely written lines with a prefix (C88_result_violated)."
  },
  {
   "property": "C89",
   "status": "partial",
   "theorems": [
    "Mtev.LogAsync.C89_once_partial",
    "Mtev.LogAsync.C89_asynch_partial",
    "Mtev.LogAsync.C89_synch_partial",
    "Mtev.LogAsync.C89_one_writer",
    "Mtev.LogAsync.C89_order_violated",
    "Mtev.LogAsync.C89_race_violated",
    "Mtev.LogAsync.C89_left_behind_violated",
    "Mtev.LogAsync.C89_short_write_violated",
    "Mtev.LogAsync.C89_full_disk_violated"
   ],
   "note": "Proved for any number of threads and every interleaving: C89_once_partial (file and lines underway are a permutation of what was logged, through all mode changes), C89_asynch_partial (asynchronous mode: per-thread prefix, no freed memory), C89_synch_partial, C89_one_writer. False of the code: going back to synchronous mode reorders a thread's lines (C89_order_violated), leaves lines in the queue (C89_left_behind_violated) and makes several readers of a one-reader queue, which read freed memory (C89_race_violated); the rest of a short write is dropped (C89_short_write_violated); a refused write aborts the process (C89_full_disk_violated)."
  },
  {
   "property": "C90",
   "status": "partial",
   "theorems": [
    "Mtev.Tls.C90_sound_partial",
    "Mtev.Tls.C90_complete",
    "Mtev.Tls.C90_switches",
    "Mtev.Tls.C90_ignore_dates_violated",
    "Mtev.Tls.C90_no_certificate_violated",
    "Mtev.Tls.C90_message_violated"
   ],
   "note": "Partial: sound and complete for each switch, for every chain, with the dates checked and a chain shown. Violated: with ignore_dates a revoked or forged certificate is let in once expired; a peer without a certificate is let in because the answer is read the wrong way round; a certificate not valid yet is reported as expired."
  },
  {
   "property": "C91",
   "status": "partial",
   "theorems": [
    "Mtev.Tls.C91_room",
    "Mtev.Tls.C91_names_partial",
    "Mtev.Tls.C91_zero_violated",
    "Mtev.Tls.C91_stale_violated",
    "Mtev.Tls.C91_subject",
    "Mtev.Tls.C91_common_name_partial",
    "Mtev.Tls.C91_common_name_violated"
   ],
   "note": "Buffers are respected for every certificate, and the subject is that of the last certificate judged. Partial: the names are those of the certificate when it has names without zero bytes that fit. Violated: a zero byte cuts a name short, names of the authority stay when the peer has none, and an organisation called x/CN=admin is known as admin."
  },
  {
   "property": "C92",
   "status": "partial",
   "theorems": [
    "Mtev.TlsCtx.C92_context_partial",
    "Mtev.TlsCtx.C92_one_change",
    "Mtev.TlsCtx.C92_settings",
    "Mtev.TlsCtx.C92_files_partial",
    "Mtev.TlsCtx.C92_no_certificate_violated",
    "Mtev.TlsCtx.C92_joined_violated",
    "Mtev.TlsCtx.C92_ca_file_violated",
    "Mtev.TlsCtx.C92_inline_violated",
    "Mtev.TlsCtx.C92_shared_crl_violated"
   ],
   "note": "Partial: role, layer and the joined text of the settings up to the first missing one agree, within the time limit, for every history. Violated: clients without a certificate share contexts whatever authority they ask for, joined values are ambiguous, ca_file has no effect, revocation lists are not used with inline authorities and leak into contexts of others."
  },
  {
   "property": "C93",
   "status": "partial",
   "theorems": [
    "Mtev.TlsCtx.C93_versions_partial",
    "Mtev.TlsCtx.C93_default",
    "Mtev.TlsCtx.C93_protocol_violated",
    "Mtev.TlsCtx.C93_documented_default_violated",
    "Mtev.TlsCtx.C93_long_violated"
   ],
   "note": "Partial: for layers with options, up to 255 bytes, with the names the code knows. Violated: a protocol alone limits nothing, long layers are cut, the documented default written out limits nothing."
  },
  {
   "property": "C94",
   "status": "partial",
   "theorems": [
    "Mtev.Alpn.C94_offered",
    "Mtev.Alpn.C94_known",
    "Mtev.Alpn.C94_off",
    "Mtev.Alpn.C94_h2_partial",
    "Mtev.Alpn.C94_http11_violated",
    "Mtev.Alpn.C94_unknown_violated",
    "Mtev.Alpn.C94_unadvertised_violated",
    "Mtev.Alpn.C94_always_violated",
    "Mtev.Alpn.C94_advertise",
    "Mtev.Alpn.C94_advertise_all",
    "Mtev.Alpn.C94_next_violated"
   ],
   "note": "Partial: what is chosen was offered; HTTP/2 is chosen when offered, unless HTTP/1.1 stands before it and behind something else. Violated: HTTP/1.1 alone is never agreed on, an unknown protocol of eight bytes is agreed on instead, protocols not advertised are taken, protocols registered without a function take the client's first, only the first is shown to clients of the older extension."
  },
  {
   "property": "C95",
   "status": "partial",
   "theorems": [
    "Mtev.Asn1Time.C95_calendar",
    "Mtev.Asn1Time.C95_dates_partial",
    "Mtev.Asn1Time.C95_around_1970_violated",
    "Mtev.Asn1Time.C95_format",
    "Mtev.Asn1Time.C95_no_such_day_violated"
   ],
   "note": "Partial: all dates of the calendar, apart from zones beyond twelve hours and times around the start of 1970. Violated: days that do not exist are read as days of the next month."
  },
  {
   "property": "C96",
   "status": "partial",
   "theorems": [
    "Mtev.WatchMon.C96_config",
    "Mtev.WatchMon.C96_limit_partial",
    "Mtev.WatchMon.C96_gives_up",
    "Mtev.WatchMon.C96_crash_violated",
    "Mtev.WatchMon.C96_hang_violated",
    "Mtev.WatchMon.C96_one_violated"
   ],
   "note": "The limit holds for children that simply end. Violated: crashes with asynchronous dumps, and hangs killed without them, are never counted; with retries=1 no restart at all is allowed."
  },
  {
   "property": "C97",
   "status": "partial",
   "theorems": [
    "Mtev.WatchMon.C97_dead_first_partial",
    "Mtev.WatchMon.C97_overlap_partial",
    "Mtev.WatchMon.C97_three_violated",
    "Mtev.WatchMon.C97_decision",
    "Mtev.WatchMon.C97_reason",
    "Mtev.WatchMon.C97_starts",
    "Mtev.WatchMon.C97_deaf_violated"
   ],
   "note": "Partial for the overlap of an emancipated child (it has closed its descriptors). Violated: three children at once, and a monitor that becomes deaf."
  },
  {
   "property": "C98",
   "status": "partial",
   "theorems": [
    "Mtev.WatchHeart.C98_silent_partial",
    "Mtev.WatchHeart.C98_limit",
    "Mtev.WatchHeart.C98_found",
    "Mtev.WatchHeart.C98_look",
    "Mtev.WatchHeart.C98_never_violated",
    "Mtev.WatchHeart.C98_enable_violated",
    "Mtev.WatchHeart.C98_enable_all_violated",
    "Mtev.WatchHeart.C98_disabled",
    "Mtev.WatchHeart.C98_front",
    "Mtev.WatchHeart.C98_create_partial",
    "Mtev.WatchHeart.C98_shared_violated"
   ],
   "note": "Violated: a hang before the first beat is never found; enabling races with the check; enable_all gives no grace; two threads creating hearts may share one."
  },
  {
   "property": "C99",
   "status": "partial",
   "theorems": [
    "Mtev.WatchMan.C99_one_partial",
    "Mtev.WatchMan.C99_stopped_violated",
    "Mtev.WatchMan.C99_back_partial",
    "Mtev.WatchMan.C99_clean_partial",
    "Mtev.WatchMan.C99_at_once",
    "Mtev.WatchMan.C99_pause",
    "Mtev.WatchMan.C99_others_violated",
    "Mtev.WatchMan.C99_term_partial",
    "Mtev.WatchMan.C99_term_violated",
    "Mtev.WatchMan.C99_term_stopped_violated"
   ],
   "note": "Partial: nobody stops an application. Violated: a stopped application is taken for dead and gets a second instance; an exit 0 of one application restarts others at once and resets their pauses; an application just forked (or once stopped) is not told to terminate."
  },
  {
   "property": "C100",
   "status": "partial",
   "theorems": [
    "Mtev.WatchConf.C100_env_partial",
    "Mtev.WatchConf.C100_args",
    "Mtev.WatchConf.C100_skipped",
    "Mtev.WatchConf.C100_environment_violated",
    "Mtev.WatchConf.C100_override_violated",
    "Mtev.WatchConf.C100_cut_violated",
    "Mtev.WatchConf.C100_path_violated"
   ],
   "note": "Violated: environment=\"false\" is documented and has no effect; an <env> cannot override the parent's variable; a pulled value is cut at 8191 bytes; exec is not searched for in PATH although documented."
  },
  {
   "property": "C101",
   "status": "partial",
   "theorems": [
    "Mtev.WatchName.C101_name",
    "Mtev.WatchName.C101_command_partial",
    "Mtev.WatchName.C101_cut_violated",
    "Mtev.WatchName.C101_limit_partial",
    "Mtev.WatchName.C101_limit_violated",
    "Mtev.WatchName.C101_null_violated",
    "Mtev.WatchName.C101_left_partial"
   ],
   "note": "Violated: the command is cut at 1023 bytes; a limit of 2148 s or more overflows in mtev_watchdog_get_timeout_timeval; mtev_watchdog_get_timeout(NULL) is documented to be 0 and is not."
  },
  {
   "property": "C102",
   "status": "partial",
   "theorems": [
    "Mtev.ConfTree.C102_attribute",
    "Mtev.ConfTree.C102_own",
    "Mtev.ConfTree.C102_hash_partial",
    "Mtev.ConfTree.C102_returns_partial",
    "Mtev.ConfTree.C102_nested_violated",
    "Mtev.ConfTree.C102_late_violated",
    "Mtev.ConfTree.C102_ring_violated"
   ],
   "note": "The attribute part is proved for every document. Sets of values: for documents written the usual way (configs first, none nested). Violated: a config inside a config (the documentation's own second example), a config after a subsection, and a circle of inherit never returns."
  },
  {
   "property": "C103",
   "status": "partial",
   "theorems": [
    "Mtev.ConfEnv.C103_off_partial",
    "Mtev.ConfEnv.C103_none",
    "Mtev.ConfEnv.C103_bad_regex",
    "Mtev.ConfEnv.C103_negation_violated",
    "Mtev.ConfEnv.C103_negation_off_violated",
    "Mtev.ConfEnv.C103_leftover_violated",
    "Mtev.ConfEnv.C103_unset_violated",
    "Mtev.ConfEnv.C103_regex_violated"
   ],
   "note": "Partial: only the innermost requirement is negated. Violated: `!` leaks into requirements further in, an empty requirement re-reads the buffer, an unset variable meets `FOO=`, a regex with `=` in it is not a regex."
  },
  {
   "property": "C104",
   "status": "partial",
   "theorems": [
    "Mtev.ConfEnv.C104_filled_partial",
    "Mtev.ConfEnv.C104_untouched",
    "Mtev.ConfEnv.C104_one_result",
    "Mtev.ConfEnv.C104_overread_violated",
    "Mtev.ConfEnv.C104_skipped_violated",
    "Mtev.ConfEnv.C104_braces_violated",
    "Mtev.ConfEnv.C104_rescan_violated",
    "Mtev.ConfEnv.C104_endless_violated",
    "Mtev.ConfEnv.C104_cut_violated"
   ],
   "note": "Partial: short well-formed references that are not followed by others after an empty result. Violated: reading past the end, references skipped, text lost, contents of variables expanded again (forever, for one naming itself), values cut at 1023 bytes."
  },
  {
   "property": "C105",
   "status": "partial",
   "theorems": [
    "Mtev.ConfEnv.C105_form_partial",
    "Mtev.ConfEnv.C105_only",
    "Mtev.ConfEnv.C105_string_partial",
    "Mtev.ConfEnv.C105_hash_violated",
    "Mtev.ConfEnv.C105_name_violated",
    "Mtev.ConfEnv.C105_default_violated"
   ],
   "note": "Partial: names up to 127 bytes and defaults without `:{`. Violated: not replaced in sets of values; long names look up another variable; a default with `:{` is cut."
  },
  {
   "property": "C106",
   "status": "partial",
   "theorems": [
    "Mtev.ConfNum.C106_decimal32_partial",
    "Mtev.ConfNum.C106_bases32_partial",
    "Mtev.ConfNum.C106_decimal64",
    "Mtev.ConfNum.C106_roundtrip",
    "Mtev.ConfNum.C106_absent",
    "Mtev.ConfNum.C106_range_violated",
    "Mtev.ConfNum.C106_negative_violated",
    "Mtev.ConfNum.C106_junk_violated",
    "Mtev.ConfNum.C106_bases_violated"
   ],
   "note": "Partial: numbers that fit. Violated: silently truncated to 32 bits, negative read as large, junk read as zero, bases differ between widths."
  },
  {
   "property": "C107",
   "status": "proved",
   "theorems": [
    "Mtev.ConfNum.C107_true",
    "Mtev.ConfNum.C107_roundtrip"
   ],
   "note": "Proved in full."
  },
  {
   "property": "C108",
   "status": "partial",
   "theorems": [
    "Mtev.ConfLock.C108_exclusive_partial",
    "Mtev.ConfLock.C108_free_partial",
    "Mtev.ConfLock.C108_release_partial",
    "Mtev.ConfLock.C108_nested_partial",
    "Mtev.ConfLock.C108_upgrade_partial",
    "Mtev.ConfLock.C108_progress_partial",
    "Mtev.ConfLock.C108_number_violated",
    "Mtev.ConfLock.C108_zero_violated"
   ],
   "note": "Partial: the parties have different non-zero numbers. Violated: a coroutine's number is the lower half of an address; equal numbers share the lock and a zero number is let in at once."
  },
  {
   "property": "C109",
   "status": "partial",
   "theorems": [
    "Mtev.XmlSave.C109_atomic_partial",
    "Mtev.XmlSave.C109_history_partial",
    "Mtev.XmlSave.C109_succeeds",
    "Mtev.XmlSave.C109_short_violated",
    "Mtev.XmlSave.C109_leftover_violated"
   ],
   "note": "Partial: no write fails. Violated: a failed write (full disk) is not noticed and the old text is gone; with both leftovers beside the file the save fails and the file is gone."
  },
  {
   "property": "C110",
   "status": "partial",
   "theorems": [
    "Mtev.XmlSave.C110_kept_partial",
    "Mtev.XmlSave.C110_once_partial",
    "Mtev.XmlSave.C110_twice_violated",
    "Mtev.XmlSave.C110_attrs_partial",
    "Mtev.XmlSave.C110_attrs_violated",
    "Mtev.XmlSave.C110_lost_violated"
   ],
   "note": "Partial: not lost if no write fails; once if nothing was left over. Violated: read back up to three times after a crash, attributes missing after a crash between the two renames, lost after a full disk."
  },
  {
   "property": "C111",
   "status": "partial",
   "theorems": [
    "Mtev.XmlBuf.C111_length_partial",
    "Mtev.XmlBuf.C111_text_partial",
    "Mtev.XmlBuf.C111_end_violated",
    "Mtev.XmlBuf.C111_long_violated"
   ],
   "note": "Partial: lengths that are not 8192 times a power of two, up to 2^30. Violated: the NUL is written past the end for the others; longer texts overflow."
  },
  {
   "property": "C112",
   "status": "partial",
   "theorems": [
    "Mtev.ConfFile.C112_old_or_new",
    "Mtev.ConfFile.C112_untouched",
    "Mtev.ConfFile.C112_failed",
    "Mtev.ConfFile.C112_all_partial",
    "Mtev.ConfFile.C112_success",
    "Mtev.ConfFile.C112_unreported_violated",
    "Mtev.ConfFile.C112_mixed_violated",
    "Mtev.ConfFile.C112_twice_violated"
   ],
   "note": "Old or new, untouched and failed are proved in full; all new is partial (no failing call, no file included twice). Violated: failures of included files are not reported, not all at once, a file included twice loses changes."
  },
  {
   "property": "C113",
   "status": "partial",
   "theorems": [
    "Mtev.ConfIncl.C113_load",
    "Mtev.ConfIncl.C113_apart_partial",
    "Mtev.ConfIncl.C113_together_partial",
    "Mtev.ConfIncl.C113_write_partial",
    "Mtev.ConfIncl.C113_add_partial",
    "Mtev.ConfIncl.C113_add_violated",
    "Mtev.ConfIncl.C113_empty_violated",
    "Mtev.ConfIncl.C113_inner_violated",
    "Mtev.ConfIncl.C113_front_violated"
   ],
   "note": "Loading is proved in full; writing is partial: no empty file but the first, no inner children with several files, new elements not at the front. Violated: null pointers and assertions in those cases, and adding an element just after loading."
  },
  {
   "property": "C114",
   "status": "partial",
   "theorems": [
    "Mtev.ConfIncl.C114_one_partial",
    "Mtev.ConfIncl.C114_ring_violated",
    "Mtev.ConfIncl.C114_bare_violated"
   ],
   "note": "Partial: one file matches the include. Violated: with two, removing an element of the first makes a ring that no walk leaves; the Lua interface leaves the root pointing to a freed element."
  },
  {
   "property": "C115",
   "status": "partial",
   "theorems": [
    "Mtev.ConfStore.C115_flush_partial",
    "Mtev.ConfStore.C115_history_partial",
    "Mtev.ConfStore.C115_quiet",
    "Mtev.ConfStore.C115_remove_partial",
    "Mtev.ConfStore.C115_change_partial",
    "Mtev.ConfStore.C115_retry_violated",
    "Mtev.ConfStore.C115_clock_violated",
    "Mtev.ConfStore.C115_mess_violated"
   ],
   "note": "Not written again is proved in full; the rest is partial: no save fails, the clock has moved on. Violated: a failed save is never retried, a change at a time up to that of the last write is never written, the files of a removed directory stay."
  },
  {
   "property": "C116",
   "status": "partial",
   "theorems": [
    "Mtev.LuaPack.C116_roundtrip_partial",
    "Mtev.LuaPack.C116_order",
    "Mtev.LuaPack.C116_types",
    "Mtev.LuaPack.C116_repeat",
    "Mtev.LuaPack.C116_safe_partial",
    "Mtev.LuaPack.C116_negative_violated",
    "Mtev.LuaPack.C116_init_violated",
    "Mtev.LuaPack.C116_count_violated",
    "Mtev.LuaPack.C116_length_violated",
    "Mtev.LuaPack.C116_word_violated"
   ],
   "note": "Byte order is proved in full. Round trip is partial (no `A`, no floating point), safety is partial (no `P` and `a`, sizes below 2^30, start from 1). Violated: negative lengths, start 0, counts near 2^31 read out of bounds; strings from 256 (`p`) or 32768 (`P`) bytes do not come back."
  },
  {
   "property": "C117",
   "status": "partial",
   "theorems": [
    "Mtev.LuaBit.C117_tobit",
    "Mtev.LuaBit.C117_bnot",
    "Mtev.LuaBit.C117_band",
    "Mtev.LuaBit.C117_bor",
    "Mtev.LuaBit.C117_bxor",
    "Mtev.LuaBit.C117_lshift",
    "Mtev.LuaBit.C117_rshift",
    "Mtev.LuaBit.C117_arshift",
    "Mtev.LuaBit.C117_rol_partial",
    "Mtev.LuaBit.C117_ror_partial",
    "Mtev.LuaBit.C117_rol_violated",
    "Mtev.LuaBit.C117_bswap",
    "Mtev.LuaBit.C117_tohex_partial",
    "Mtev.LuaBit.C117_tohex_violated"
   ],
   "note": "Proved except rotations by multiples of 32 and a hex count of -2^31, which C leaves undefined (violated)."
  },
  {
   "property": "C118",
   "status": "partial",
   "theorems": [
    "Mtev.Lockfile.C118_exclusive_partial",
    "Mtev.Lockfile.C118_free_partial",
    "Mtev.Lockfile.C118_crash",
    "Mtev.Lockfile.C118_fail",
    "Mtev.Lockfile.C118_owner_partial",
    "Mtev.Lockfile.C118_exclusive_violated",
    "Mtev.Lockfile.C118_owner_violated",
    "Mtev.Lockfile.C118_noowner_violated"
   ],
   "note": "Failing and crash are proved in full. Exclusion is partial: one caller per process; with two the lock is lost when one releases. The reported owner may be an earlier one or missing (violated)."
  },
  {
   "property": "C119",
   "status": "partial",
   "theorems": [
    "Mtev.Mkdir.C119_ok_partial",
    "Mtev.Mkdir.C119_only_partial",
    "Mtev.Mkdir.C119_can_partial",
    "Mtev.Mkdir.C119_top_violated",
    "Mtev.Mkdir.C119_file_violated",
    "Mtev.Mkdir.C119_long_violated"
   ],
   "note": "Partial: paths below PATH_MAX with a directory part, no file in the way. Violated: a file in the root or without a slash gives -1; a file with the directory's name gives success; longer paths are read out of bounds."
  },
  {
   "property": "C120",
   "status": "proved",
   "theorems": [
    "Mtev.ConCmd.C120_first",
    "Mtev.ConCmd.C120_exact",
    "Mtev.ConCmd.C120_unique",
    "Mtev.ConCmd.C120_ambiguous",
    "Mtev.ConCmd.C120_question",
    "Mtev.ConCmd.C120_unknown",
    "Mtev.ConCmd.C120_letters"
   ],
   "note": "Proved for every table."
  },
  {
   "property": "C121",
   "status": "partial",
   "theorems": [
    "Mtev.ConCmd.C121_all_partial",
    "Mtev.ConCmd.C121_first_violated",
    "Mtev.ConCmd.C121_common"
   ],
   "note": "The common beginning and the bounds are proved in full. All completions is partial: the first command typed in full has none (violated)."
  },
  {
   "property": "C122",
   "status": "partial",
   "theorems": [
    "Mtev.ConApply.C122_safe",
    "Mtev.ConApply.C122_replace_partial",
    "Mtev.ConApply.C122_same_partial",
    "Mtev.ConApply.C122_long_violated",
    "Mtev.ConApply.C122_apply_partial"
   ],
   "note": "Partial: names up to 253 bytes; longer ones are cut, and what is replaced is another name (violated)."
  },
  {
   "property": "C123",
   "status": "partial",
   "theorems": [
    "Mtev.ConApply.C123_up_partial",
    "Mtev.ConApply.C123_down",
    "Mtev.ConApply.C123_step",
    "Mtev.ConApply.C123_overflow_violated",
    "Mtev.ConApply.C123_limit_violated",
    "Mtev.ConApply.C123_digits_violated",
    "Mtev.ConApply.C123_ip",
    "Mtev.ConApply.C123_refused_partial",
    "Mtev.ConApply.C123_mask_violated"
   ],
   "note": "Partial: the number of values below 2^31. Violated: `0..2147483647` overflows the count, the limit of 256 does not apply to numbers, the end of a range with more than 31 digits is ignored, a mask of 1 bit shifts into the sign."
  },
  {
   "property": "C124",
   "status": "partial",
   "theorems": [
    "Mtev.Tzinfo.C124_none",
    "Mtev.Tzinfo.C124_at_partial",
    "Mtev.Tzinfo.C124_near_partial",
    "Mtev.Tzinfo.C124_wrong_violated",
    "Mtev.Tzinfo.C124_last_violated",
    "Mtev.Tzinfo.C124_single_violated",
    "Mtev.Tzinfo.C124_exact_violated"
   ],
   "note": "Proved without transitions; partial for 2^m transitions and times that are none of them. Violated: with 5 transitions a wrong zone is found, after the last of 3 and with a single one the array is overrun, at an exact transition the zone before it is found."
  },
  {
   "property": "C125",
   "status": "partial",
   "theorems": [
    "Mtev.Tzinfo.C125_parse",
    "Mtev.Tzinfo.C125_roundtrip",
    "Mtev.Tzinfo.C125_exact",
    "Mtev.Tzinfo.C125_zone_name",
    "Mtev.Tzinfo.C125_name_partial",
    "Mtev.Tzinfo.C125_name_violated"
   ],
   "note": "Reading is proved in full. The zone's own name is partial: if all zones are summer time it is read from behind the table (violated)."
  },
  {
   "property": "C126",
   "status": "partial",
   "theorems": [
    "Mtev.Tzinfo.C126_offset_partial",
    "Mtev.Tzinfo.C126_offset_violated",
    "Mtev.Tzinfo.C126_safe_partial",
    "Mtev.Tzinfo.C126_format_partial",
    "Mtev.Tzinfo.C126_long_violated"
   ],
   "note": "Partial: results below 2047 bytes, offsets other than -2^31 (violated: cut, overflow)."
  },
  {
   "property": "C127",
   "status": "partial",
   "theorems": [
    "Mtev.Security.C127_drop",
    "Mtev.Security.C127_root_partial",
    "Mtev.Security.C127_groups_violated",
    "Mtev.Security.C127_same_violated",
    "Mtev.Security.C127_number_violated",
    "Mtev.Security.C127_alone_violated",
    "Mtev.Security.C127_effective",
    "Mtev.Security.C127_back",
    "Mtev.Security.C127_unknown"
   ],
   "note": "No way back to user 0 is proved for every process whose real user changes; the full change is partial: supplementary groups are kept. Violated: supplementary groups, a set-user-id program whose real user is the one asked for, numbers from 2^32, user without group."
  },
  {
   "property": "C128",
   "status": "partial",
   "theorems": [
    "Mtev.Telnet.C128_stream_partial",
    "Mtev.Telnet.C128_portions_partial",
    "Mtev.Telnet.C128_portions_violated",
    "Mtev.Telnet.C128_sub_violated",
    "Mtev.Telnet.C128_bounds",
    "Mtev.Telnet.C128_lines_partial",
    "Mtev.Telnet.C128_ignored",
    "Mtev.Telnet.C128_return",
    "Mtev.Telnet.C128_mapped",
    "Mtev.Telnet.C128_shared_violated",
    "Mtev.Telnet.C128_shared_partial"
   ],
   "note": "Partial: suboptions up to six bytes, no line mode unless lines are read together, several connections only if whole items are read at once. Violated: longer suboptions are cut (`sizeof` of a pointer), CR and LF read separately in line mode, the receiver's state is shared by all connections."
  },
  {
   "property": "C129",
   "status": "partial",
   "theorems": [
    "Mtev.TelOpt.C129_agree",
    "Mtev.TelOpt.C129_ends",
    "Mtev.TelOpt.C129_refused_violated",
    "Mtev.TelOpt.C129_only",
    "Mtev.TelOpt.C129_repeat",
    "Mtev.TelOpt.C129_request",
    "Mtev.TelOpt.C129_off",
    "Mtev.TelOpt.C129_counter"
   ],
   "note": "Violated: an end that does not support an option and is asked for it refuses, but keeps it as switched on and waits for an answer that does not come."
  },
  {
   "property": "C130",
   "status": "partial",
   "theorems": [
    "Mtev.Zipkin.C130_length",
    "Mtev.Zipkin.C130_encode_partial",
    "Mtev.Zipkin.C130_half_violated",
    "Mtev.Zipkin.C130_list_partial",
    "Mtev.Zipkin.C130_publish_partial",
    "Mtev.Zipkin.C130_publish_violated"
   ],
   "note": "Bounds and length are proved in full. Partial: the buffer has to be twice as long as the encoding. Violated for every span: the macro compares all that was written with the room that is left, so from half of the buffer on nothing is written though success is reported; every span above 2097 bytes is published with uninitialised memory."
  },
  {
   "property": "C131",
   "status": "partial",
   "theorems": [
    "Mtev.ZipkinSpan.C131_root",
    "Mtev.ZipkinSpan.C131_given",
    "Mtev.ZipkinSpan.C131_first",
    "Mtev.ZipkinSpan.C131_child",
    "Mtev.ZipkinSpan.C131_force",
    "Mtev.ZipkinSpan.C131_always",
    "Mtev.ZipkinSpan.C131_debug",
    "Mtev.ZipkinSpan.C131_sampling",
    "Mtev.ZipkinSpan.C131_zero_violated"
   ],
   "note": "Violated only for probability 0: drawing 0 makes a span."
  },
  {
   "property": "C132",
   "status": "partial",
   "theorems": [
    "Mtev.ZipkinSpan.C132_start",
    "Mtev.ZipkinSpan.C132_duration_partial",
    "Mtev.ZipkinSpan.C132_within",
    "Mtev.ZipkinSpan.C132_duration_violated"
   ],
   "note": "The start is proved in full; the end is partial: no time before the start of the span. Violated: an earlier time moves the start but not the duration."
  },
  {
   "property": "C133",
   "status": "partial",
   "theorems": [
    "Mtev.ZipkinSpan.C133_digits_partial",
    "Mtev.ZipkinSpan.C133_roundtrip",
    "Mtev.ZipkinSpan.C133_propagate",
    "Mtev.ZipkinSpan.C133_debug",
    "Mtev.ZipkinSpan.C133_long_violated",
    "Mtev.ZipkinSpan.C133_junk_violated",
    "Mtev.ZipkinSpan.C133_refused",
    "Mtev.ZipkinSpan.C133_case"
   ],
   "note": "Round trip and server side are proved for all identities; digits partial: numbers below 2^64. Violated: longer identities all become -1, some texts that are no numbers are taken."
  },
  {
   "property": "C134",
   "status": "partial",
   "theorems": [
    "Mtev.ZipkinCtx.C134_safe_partial",
    "Mtev.ZipkinCtx.C134_alive",
    "Mtev.ZipkinCtx.C134_once",
    "Mtev.ZipkinCtx.C134_counted_partial",
    "Mtev.ZipkinCtx.C134_published_partial",
    "Mtev.ZipkinCtx.C134_inherit",
    "Mtev.ZipkinCtx.C134_callback",
    "Mtev.ZipkinCtx.C134_crash_violated",
    "Mtev.ZipkinCtx.C134_copy_violated",
    "Mtev.ZipkinCtx.C134_attach_violated",
    "Mtev.ZipkinCtx.C134_null_violated"
   ],
   "note": "Proved for all histories: no use after free (for programs that use only spans they have), counters never below the references held, at most one publication. Partial: freed and published for certain only if events traced by callback are not copied inside their callback. Violated: freeing an event with a named callback whose own span was not sampled reads through NULL; a copy made inside a traced callback loses its span; attaching an event's own span to it uses freed memory; NULL for the current event is not accepted though documented."
  },
  {
   "property": "C135",
   "status": "partial",
   "theorems": [
    "Mtev.AcoGate.C135_safe_partial",
    "Mtev.AcoGate.C135_no_hang",
    "Mtev.AcoGate.C135_wait",
    "Mtev.AcoGate.C135_last",
    "Mtev.AcoGate.C135_enter",
    "Mtev.AcoGate.C135_released",
    "Mtev.AcoGate.C135_leak_violated",
    "Mtev.AcoGate.C135_try_violated",
    "Mtev.AcoGate.C135_try_pending_violated",
    "Mtev.AcoGate.C135_shared_violated"
   ],
   "note": "Proved for all histories in which a gate is used by the coroutine that made it and no queue is full. Violated: a failed try frees the gate that was passed in, and the wait that follows (or the completion of an earlier job) uses it; a gate shared by two coroutines resumes the wrong one and leaves the other waiting for ever; the forms without a gate never free the gate they make."
  },
  {
   "property": "C136",
   "status": "partial",
   "theorems": [
    "Mtev.AcoIo.C136_safe",
    "Mtev.AcoIo.C136_clean",
    "Mtev.AcoIo.C136_woken",
    "Mtev.AcoIo.C136_at_once",
    "Mtev.AcoIo.C136_waits",
    "Mtev.AcoIo.C136_default",
    "Mtev.AcoIo.C136_times_out",
    "Mtev.AcoIo.C136_sleeps",
    "Mtev.AcoIo.C136_result_partial",
    "Mtev.AcoIo.C136_timeout_partial",
    "Mtev.AcoIo.C136_sleep_violated"
   ],
   "note": "Proved for all histories: no assertion fails, descriptors and timers are registered exactly while waited for. Partial: first result and no false timeout only for coroutines that never sleep. Violated: eventer_aco_sleep leaves private_errno set to ETIMEDOUT, so the next call that has to wait reports a timeout when its descriptor becomes ready, even without any timeout."
  },
  {
   "property": "C137",
   "status": "partial",
   "theorems": [
    "Mtev.ConOut.C137_text",
    "Mtev.ConOut.C137_plain",
    "Mtev.ConOut.C137_lines",
    "Mtev.ConOut.C137_exact_partial",
    "Mtev.ConOut.C137_kept_partial",
    "Mtev.ConOut.C137_flush",
    "Mtev.ConOut.C137_safe_partial",
    "Mtev.ConOut.C137_overflow_violated",
    "Mtev.ConOut.C137_overflow_telnet_violated",
    "Mtev.ConOut.C137_double_violated",
    "Mtev.ConOut.C137_option_violated",
    "Mtev.ConOut.C137_abort_violated",
    "Mtev.ConOut.C137_abort_lost_violated"
   ],
   "note": "Proved for all histories: text complete and in order with only carriage returns added, each line feed after a carriage return, plain output exact, everything sent once the descriptor takes enough. Violated: nc_write_with_lock does not store the size it reallocates to, so a following nc_printf computes a negative room and writes past the buffer (also on telnet after a blocked send); a send blocked between CR and LF yields CR CR LF; telnet option 10 gets a CR inserted; netclear leaves outbuf_completed, so the next cooking reads outside the buffer and plain output is lost."
  },
  {
   "property": "C138",
   "status": "partial",
   "theorems": [
    "Mtev.ConTab.C138_offered_partial",
    "Mtev.ConTab.C138_press_partial",
    "Mtev.ConTab.C138_only",
    "Mtev.ConTab.C138_nothing",
    "Mtev.ConTab.C138_quote_violated",
    "Mtev.ConTab.C138_abbreviation_violated",
    "Mtev.ConTab.C138_shorter_violated"
   ],
   "note": "Proved for all command trees and lines whose earlier words are spelled in full; pressing the key proved for words spelled as the commands are. Violated: tab in the first word after an open double quote leaves no arguments, and mtev_console_opt_delegate falls through to look up argv[0], which is NULL; after an abbreviated word the completions of that word are offered for the next; completions that differ in capitals shorten the word."
  },
  {
   "property": "C139",
   "status": "partial",
   "theorems": [
    "Mtev.CurlHelp.C139_in_order",
    "Mtev.CurlHelp.C139_complete",
    "Mtev.CurlHelp.C139_returns_partial",
    "Mtev.CurlHelp.C139_trailing_violated",
    "Mtev.CurlHelp.C139_stall_violated",
    "Mtev.CurlHelp.C139_pause_violated",
    "Mtev.CurlHelp.C139_plain_violated",
    "Mtev.CurlHelp.C139_plain_partial",
    "Mtev.CurlHelp.C139_setup_violated"
   ],
   "note": "Proved for all lawful decompressors (zlib and LZ4 are parameters, their laws are stated and shown satisfiable): order, no gaps, completeness at the end of the stream. Returning proved if no data follows the end of the stream and the function takes at least one byte. Violated: data after the end of a gzip stream loops for ever; a function that takes nothing loops for ever; one that returns more than it was given (curl's pause) underflows the length; uncompressed pieces over 8192 bytes fail; the gzip helper's z_stream is used uninitialised."
  },
  {
   "property": "C140",
   "status": "partial",
   "theorems": [
    "Mtev.Listen.C140_active_partial",
    "Mtev.Listen.C140_idle_partial",
    "Mtev.Listen.C140_write_violated",
    "Mtev.Listen.C140_race_violated",
    "Mtev.Listen.C140_handshake_violated"
   ],
   "note": "Proved for all histories: not before the timeout if the clock of the timer's thread is not behind the last read; by timeout + min(timeout, 5 s) + 1 ms once the handshake is over and while the event is found. Violated: what is sent does not count (the age is taken from the last read twice); a read after the timer's thread read the clock terminates the connection at once; a connection in its TLS handshake is told once, ignores it, and is never terminated."
  },
  {
   "property": "C141",
   "status": "partial",
   "theorems": [
    "Mtev.Listen.C141_each",
    "Mtev.Listen.C141_all",
    "Mtev.Listen.C141_interrupt_violated",
    "Mtev.Listen.C141_owner_partial",
    "Mtev.Listen.C141_pool_violated"
   ],
   "note": "Proved for all sequences of distinct descriptors, and the choice of the thread. Violated: an interrupted accept is not repeated; a named pool is used though fanout is off."
  },
  {
   "property": "C142",
   "status": "partial",
   "theorems": [
    "Mtev.Listen.C142_name_partial",
    "Mtev.Listen.C142_anonymous",
    "Mtev.Listen.C142_other_violated",
    "Mtev.Listen.C142_slash_violated"
   ],
   "note": "Proved if no CN= stands before the common name and it has no slash. Violated: an organisation named CN=x gives the peer the name x; names are cut at slashes."
  },
  {
   "property": "C143",
   "status": "partial",
   "theorems": [
    "Mtev.Listen.C143_handler",
    "Mtev.Listen.C143_command_partial",
    "Mtev.Listen.C143_end",
    "Mtev.Listen.C143_split_violated"
   ],
   "note": "Handlers proved for all registrations; the command proved if its four bytes are there in the first callback, in any pieces. Violated: if they are not, bytes of a local variable that was never written are used instead of those of the earlier callback."
  },
  {
   "property": "C144",
   "status": "partial",
   "theorems": [
    "Mtev.Listen.C144_address_partial",
    "Mtev.Listen.C144_starts",
    "Mtev.Listen.C144_success",
    "Mtev.Listen.C144_closed",
    "Mtev.Listen.C144_kept_partial",
    "Mtev.Listen.C144_removed_violated",
    "Mtev.Listen.C144_path_violated"
   ],
   "note": "inet_pton is a parameter. Proved: the address bound for paths up to 107 bytes, starting, closing on failure, that only the given path is removed. Violated: the test of the mode also holds for regular files, which are removed; longer paths are cut and something else is bound."
  },
  {
   "property": "C145",
   "status": "partial",
   "theorems": [
    "Mtev.Listen.C145_started",
    "Mtev.Listen.C145_settings_partial",
    "Mtev.Listen.C145_tls_violated"
   ],
   "note": "Proved for all sections (paths excepted in the exact characterisation). Violated: ssl=on without an sslconfig is started without TLS."
  },
  {
   "property": "C146",
   "status": "partial",
   "theorems": [
    "Mtev.Listen.C146_text_partial",
    "Mtev.Listen.C146_room",
    "Mtev.Listen.C146_long_violated"
   ],
   "note": "Proved for IPv4, for IPv6 texts up to 27 bytes, for paths; the bound for all. Violated: longer IPv6 texts give an empty answer."
  },
  {
   "property": "C147",
   "status": "partial",
   "theorems": [
    "Mtev.HttpConn.C147_order_partial",
    "Mtev.HttpConn.C147_served_partial",
    "Mtev.HttpConn.C147_pipelined_violated",
    "Mtev.HttpConn.C147_early_violated",
    "Mtev.HttpConn.C147_smuggled_violated",
    "Mtev.HttpConn.C147_bad_body_violated"
   ],
   "note": "The parsers of heads and bodies are parameters (C33, C35, C60, C61). Proved for clients that wait for each response and handlers that take the whole body before they answer. Violated otherwise: everything read beyond a request is released with it, so a pipelined request, or one sent after an early response to an upload, is never answered; if only its head was read so far, its body is then taken for a request; and after a body that cannot be read the connection goes on with whatever follows."
  },
  {
   "property": "C148",
   "status": "partial",
   "theorems": [
    "Mtev.WsClient.C148_request_partial",
    "Mtev.WsClient.C148_long_violated",
    "Mtev.WsClient.C148_blocked_violated",
    "Mtev.WsClient.C148_ready_partial",
    "Mtev.WsClient.C148_ended",
    "Mtev.WsClient.C148_only_partial",
    "Mtev.WsClient.C148_split_violated",
    "Mtev.WsClient.C148_message_violated",
    "Mtev.WsClient.C148_case_violated",
    "Mtev.WsClient.C148_status_violated",
    "Mtev.WsClient.C148_overrun_violated"
   ],
   "note": "Proved: the request, up to 4095 bytes, if no write would block; readiness if the response arrives within one callback and ends there, in any pieces; and that readiness means the key followed the header's name. Violated: longer requests read beyond a buffer; a write that would block ends the connection; a response split over callbacks is refused (the first part is forgotten); one that comes together with a message is never seen; the name of the header is compared with its capitals; the status does not matter; a response without the header is searched beyond its end."
  },
  {
   "property": "C149",
   "status": "partial",
   "theorems": [
    "Mtev.WsClient.C149_released_partial",
    "Mtev.WsClient.C149_noref",
    "Mtev.WsClient.C149_callback_partial",
    "Mtev.WsClient.C149_leak_violated",
    "Mtev.WsClient.C149_send_violated",
    "Mtev.WsClient.C149_closed_violated",
    "Mtev.WsClient.C149_inside_violated"
   ],
   "note": "Proved for clients whose connection ends before they are freed, and for clients without a reference. Violated: freeing a connected client leaks it; sending after the connection ended uses freed memory; asking in the cleanup callback whether the client is closed deadlocks; freeing the client in its message callback uses freed memory."
  },
  {
   "property": "C150",
   "status": "partial",
   "theorems": [
    "Mtev.HugeHash.C150_map_partial",
    "Mtev.HugeHash.C150_stored_partial",
    "Mtev.HugeHash.C150_hang_violated",
    "Mtev.HugeHash.C150_delete_violated",
    "Mtev.HugeHash.C150_pointer_partial",
    "Mtev.HugeHash.C150_pointer_violated",
    "Mtev.HugeHash.C150_iterating_violated"
   ],
   "note": "Proved for all sequences of calls by all threads: the answers are those of a map; and stores that need at most a fifth of the map succeed, also when it has to grow. Violated: a store that does not fit while less than four fifths of the map are in use is tried again for ever (a megabyte into a new table); deletes in a full map fail; the memory retrieve returns is not readable after the next write; a thread with an open iterator is told every key is missing."
  },
  {
   "property": "C151",
   "status": "partial",
   "theorems": [
    "Mtev.HugeHash.C151_walk",
    "Mtev.HugeHash.C151_deadlock_violated",
    "Mtev.HugeHash.C151_self_violated",
    "Mtev.HugeHash.C151_released_partial"
   ],
   "note": "Proved: what an iterator returns, for all calls made meanwhile; and that closing the last iterator lets a waiting store go on. Violated: a delete (or any other call) by an iterating thread while another waits to resize deadlocks both; a store by an iterating thread that has to resize waits for itself."
  },
  {
   "property": "C152",
   "status": "partial",
   "theorems": [
    "Mtev.Dso.C152_reported_partial",
    "Mtev.Dso.C152_order",
    "Mtev.Dso.C152_once",
    "Mtev.Dso.C152_off",
    "Mtev.Dso.C152_config_violated",
    "Mtev.Dso.C152_init_violated",
    "Mtev.Dso.C152_nameless_violated",
    "Mtev.Dso.C152_twice_violated",
    "Mtev.Dso.C152_onload_violated"
   ],
   "note": "Proved: a count of 0 means every named module is loaded, no loader refused its configuration and no generic that accepted its own failed to initialise; if nothing fails the count is 0 and the callbacks come in the order stated; in all runs a module is configured and initialised at most once and not after refusing. Violated: a generic that refuses its configuration, a loader that fails to initialise, and a stanza without name are not counted; a loader that cannot be loaded counts twice; a name configured twice has its onload called again."
  },
  {
   "property": "C153",
   "status": "partial",
   "theorems": [
    "Mtev.Dso.C153_first_partial",
    "Mtev.Dso.C153_absolute",
    "Mtev.Dso.C153_long_violated",
    "Mtev.Dso.C153_symbol"
   ],
   "note": "Proved for paths up to 4095 bytes. Violated: longer absolute names open the file named by their first 4095 bytes."
  },
  {
   "property": "C154",
   "status": "partial",
   "theorems": [
    "Mtev.Clock.C154_monotone_partial",
    "Mtev.Clock.C154_close",
    "Mtev.Clock.C154_outliers",
    "Mtev.Clock.C154_desync",
    "Mtev.Clock.C154_backwards_violated",
    "Mtev.Clock.C154_cpus_violated",
    "Mtev.Clock.C154_day",
    "Mtev.Clock.C154_day_system",
    "Mtev.Clock.C154_step_violated",
    "Mtev.Clock.C154_maintain_partial",
    "Mtev.Clock.C154_maintain_violated"
   ],
   "note": "Proved: between calibrations a CPU's readings do not decrease; a calibration that sets the clock leaves it within 101 ns at four at least of the six comparisons; after 15 s without one the system's clock is used; the three forms of the time of day agree. Violated: a reading after a calibration can be smaller than one before (by milliseconds, when the system's clock is slewed); a later reading on another CPU can be smaller; a step of the system's time of day is not seen for up to 15 s; mtev_time_maintain jumps to a null pointer before mtev_time_start_tsc and aborts when another thread maintains the same CPU, as pthread_mutex_trylock does not set errno. Missing: rounding of doubles (exact fractions are used)."
  },
  {
   "property": "C155",
   "status": "partial",
   "theorems": [
    "Mtev.Observer.C155_row_partial",
    "Mtev.Observer.C155_note",
    "Mtev.Observer.C155_live_violated",
    "Mtev.Observer.C155_kept_partial",
    "Mtev.Observer.C155_wrap_violated",
    "Mtev.Observer.C155_race_violated",
    "Mtev.Observer.C155_zero_violated",
    "Mtev.Observer.C155_ids"
   ],
   "note": "Proved of the module's hooks alone: called in the order of a request's life they leave a row with the times and status, kept while fewer than max_count others finish and no listing finds it too old; new ids are fresh. Violated: mtev_http_log_request calls the log hook also when a request is received, so every request is taken for finished at once, with status 0, and nothing later changes its row; when the 32-bit counter wraps a request is overwritten too early; a listing drops requests that finished after it began; max_count 0 divides by zero."
  },
  {
   "property": "C156",
   "status": "partial",
   "theorems": [
    "Mtev.Observer.C156_rows_partial",
    "Mtev.Observer.C156_many_violated",
    "Mtev.Observer.C156_bad_violated"
   ],
   "note": "Proved for sixteen conditions at most whose expressions compile. Violated: later conditions are ignored; an expression that does not compile is met by any value."
  },
  {
   "property": "C157",
   "status": "partial",
   "theorems": [
    "Mtev.Consul.C157_current_partial",
    "Mtev.Consul.C157_told",
    "Mtev.Consul.C157_timeout_violated",
    "Mtev.Consul.C157_big_violated",
    "Mtev.Consul.C157_spacing",
    "Mtev.Consul.C157_detach_partial",
    "Mtev.Consul.C157_detach_violated"
   ],
   "note": "Proved for timeouts that come before the header and 32-bit indexes: a watch asks for changes since an index only when the witness was told all up to it; spacing of fetches. Violated: a timeout after the header loses a change; larger indexes are cut, so fetches do not wait; the witness is called after detaching. Missing: the JSON and base64 of answers."
  },
  {
   "property": "C158",
   "status": "partial",
   "theorems": [
    "Mtev.Consul.C158_state",
    "Mtev.Consul.C158_push_partial",
    "Mtev.Consul.C158_pushes_violated",
    "Mtev.Consul.C158_stops",
    "Mtev.Consul.C158_health",
    "Mtev.Consul.C158_unknown",
    "Mtev.Consul.C158_ref_violated",
    "Mtev.Consul.C158_name_partial",
    "Mtev.Consul.C158_long_violated"
   ],
   "note": "Proved: the state follows what was asked for when consul accepts; with one registration each check has one timer; deregistered services' timers end and send nothing; the health sent and reported is the one set; names up to 127 bytes. Violated: registering again starts the timers again; looking up and giving back frees the registered service, as it starts without a reference; names of 128 bytes and more are not found."
  },
  {
   "property": "C159",
   "status": "partial",
   "theorems": [
    "Mtev.Consul.C159_value_partial",
    "Mtev.Consul.C159_freed_violated"
   ],
   "note": "Proved. Violated with the debugging log on: the key is read after it was freed. Missing: URLs longer than 1023 bytes."
  },
  {
   "property": "C160",
   "status": "partial",
   "theorems": [
    "Mtev.Amqp.C160_safe",
    "Mtev.Amqp.C160_order",
    "Mtev.Amqp.C160_complete",
    "Mtev.Amqp.C160_freed",
    "Mtev.Amqp.C160_drains",
    "Mtev.Amqp.C160_retry",
    "Mtev.Amqp.C160_id_violated"
   ],
   "note": "Proved for one connection or more and ids of connections that are there. Violated otherwise: an id of 128 or more writes outside an array, smaller ones lose the message without freeing it. Missing: the copying of the envelope's properties, and messages the broker took though the library reported a failure."
  },
  {
   "property": "C161",
   "status": "partial",
   "theorems": [
    "Mtev.Amqp.C161_split_partial",
    "Mtev.Amqp.C161_plain_partial",
    "Mtev.Amqp.C161_fits",
    "Mtev.Amqp.C161_long_violated"
   ],
   "note": "Proved for names that fit in 126 bytes. Violated: longer ones are cut, so that different streams send under one key."
  },
  {
   "property": "C162",
   "status": "partial",
   "theorems": [
    "Mtev.Amqp.C162_counts",
    "Mtev.Amqp.C162_poll",
    "Mtev.Amqp.C162_history",
    "Mtev.Amqp.C162_fanout_violated",
    "Mtev.Amqp.C162_fanout_partial"
   ],
   "note": "Proved for sends and polls one after the other. Violated: with a fanout two threads count receptions without a guard and lose counts. Missing: the client library."
  },
  {
   "property": "C163",
   "status": "partial",
   "theorems": [
    "Mtev.CurlEv.C163_safe",
    "Mtev.CurlEv.C163_watched_partial",
    "Mtev.CurlEv.C163_reuse_violated",
    "Mtev.CurlEv.C163_contexts",
    "Mtev.CurlEv.C163_events_violated"
   ],
   "note": "Safety, and that contexts are freed, are proved in full. What is watched is proved unless curl gives up a socket in its own callback and gets the same number again in it: then the kernel watches the new socket with the mask of the old one. Violated too: events of sockets given up are never freed."
  },
  {
   "property": "C164",
   "status": "partial",
   "theorems": [
    "Mtev.CurlEv.C164_kept",
    "Mtev.CurlEv.C164_live",
    "Mtev.CurlEv.C164_live_inside",
    "Mtev.CurlEv.C164_once",
    "Mtev.CurlEv.C164_only_partial",
    "Mtev.CurlEv.C164_stale_violated",
    "Mtev.CurlEv.C164_forgotten_violated"
   ],
   "note": "That the timeout asked for last is pending, and that the one remembered was not freed, are proved in full. Violated: earlier timeouts stay pending beside it, and one asked for while a timer fires cannot be taken back."
  },
  {
   "property": "C165",
   "status": "partial",
   "theorems": [
    "Mtev.Rand.C165_fill_partial",
    "Mtev.Rand.C165_endless_violated",
    "Mtev.Rand.C165_secure_partial",
    "Mtev.Rand.C165_secure_violated",
    "Mtev.Rand.C165_bits",
    "Mtev.Rand.C165_trysecure",
    "Mtev.Rand.C165_seed",
    "Mtev.Rand.C165_range_violated"
   ],
   "note": "Proved for buffers up to 2^32 - 8 bytes, and below 2^31 bytes for the secure variant. Violated: larger ones are filled without end; the secure variant returns success for a multiple of 2^32 and writes nothing; mtev_rand returns at most one in 65,536 of the numbers. Missing: the quality of the library's generator."
  },
  {
   "property": "C166",
   "status": "partial",
   "theorems": [
    "Mtev.SmallBuf.C166_array_partial",
    "Mtev.SmallBuf.C166_freed_partial",
    "Mtev.SmallBuf.C166_stack",
    "Mtev.SmallBuf.C166_overflow_violated"
   ],
   "note": "Proved for requests below 2^64 bytes. Violated: the product of count and element size wraps, so that a huge request gets no room. Missing: running out of memory, which the macros do not look at."
  },
  {
   "property": "C167",
   "status": "partial",
   "theorems": [
    "Mtev.SmallBuf.C167_text_partial",
    "Mtev.SmallBuf.C167_reset",
    "Mtev.SmallBuf.C167_nomem",
    "Mtev.SmallBuf.C167_nomem_violated",
    "Mtev.SmallBuf.C167_overflow_violated"
   ],
   "note": "Proved for texts below 2^30 bytes with memory available. Violated: at 2^30 bytes an int overflows; and formatted output reports success when there was no memory, so that the text goes on without the piece."
  },
  {
   "property": "C168",
   "status": "partial",
   "theorems": [
    "Mtev.JsonFile.C168_read_partial",
    "Mtev.JsonFile.C168_error",
    "Mtev.JsonFile.C168_empty_violated",
    "Mtev.JsonFile.C168_nul_violated",
    "Mtev.JsonFile.C168_written",
    "Mtev.JsonFile.C168_succeeds",
    "Mtev.JsonFile.C168_roundtrip"
   ],
   "note": "Writing, and failed reads, are proved in full. Reading is proved for files that are not empty, have no NUL and are below 2^30 bytes. Violated: for an empty file memory never written is parsed; what follows a NUL is not looked at. Missing: running out of memory while reading."
  },
  {
   "property": "C169",
   "status": "partial",
   "theorems": [
    "Mtev.Jaeger.C169_order_partial",
    "Mtev.Jaeger.C169_prefix",
    "Mtev.Jaeger.C169_bounds",
    "Mtev.Jaeger.C169_stops_violated",
    "Mtev.Jaeger.C169_once",
    "Mtev.Jaeger.C169_success",
    "Mtev.Jaeger.C169_retries_violated"
   ],
   "note": "Order, batches and references are proved in full. That spans are taken is proved for the first so many as the backlog. Violated: after that none is taken ever again, because the counter of the queue is never lowered; and with retries configured a failing collector is asked without end. Missing: the encoding of the batch (see the claims on spans) and curl."
  },
  {
   "property": "C170",
   "status": "partial",
   "theorems": [
    "Mtev.Capa.C170_listed_partial",
    "Mtev.Capa.C170_commands",
    "Mtev.Capa.C170_collision_violated",
    "Mtev.Capa.C170_feature",
    "Mtev.Capa.C170_delivered",
    "Mtev.Capa.C170_closes"
   ],
   "note": "Commands, features and the delivery are proved in full. That services are listed is proved for addresses of 32 bits. Violated: longer addresses are cut to eight digits, so that of two services whose functions lie in the same 64 KiB one replaces the other. Missing: the other parts of the document and its XML form."
  },
  {
   "property": "C171",
   "status": "partial",
   "theorems": [
    "Mtev.EvRest.C171_local",
    "Mtev.EvRest.C171_remote_partial",
    "Mtev.EvRest.C171_remote_violated",
    "Mtev.EvRest.C171_timer"
   ],
   "note": "Descriptors, masks, local addresses and timers are proved in full, peers for IPv4. Violated: a peer of IPv6 is shown as the IPv4 address its first four bytes make. Missing: the names of callbacks, pools and implementations."
  }
 ]
}