{
 "claims": [
  {
   "property": "C01",
   "status": "proved",
   "theorems": [
    "GoNostr.C01_serialize_injective",
    "GoNostr.C01_id_binds_fields"
   ],
   "note": "All events, arbitrary bytes; CreatedAt and Kind are unbounded integers. The id corollary is stated up to an explicit hash collision."
  },
  {
   "property": "C02",
   "status": "proved",
   "theorems": [
    "GoNostr.C02_escape_decodes",
    "GoNostr.C02_no_raw_control"
   ],
   "note": "Independent RFC 8259 decoder in Verif/Event/Spec.lean."
  },
  {
   "property": "C03",
   "status": "proved",
   "theorems": [
    "GoNostr.C03_checkID_iff",
    "GoNostr.C03_getID_format"
   ],
   "note": "sha256 is a parameter with 32-byte digests; indexing carries an explicit panic outcome."
  },
  {
   "property": "C04",
   "status": "proved",
   "theorems": [
    "GoNostr.C04_sign_verifies",
    "GoNostr.C04_sign_fails_cleanly"
   ],
   "note": "Schnorr library is a parameter; hypothesis Schnorr.Correct is the sign/verify contract."
  },
  {
   "property": "C05",
   "status": "proved",
   "theorems": [
    "GoNostr.C05_checkSignature_iff",
    "GoNostr.C05_signature_binds_fields",
    "GoNostr.C05_id_not_covered",
    "GoNostr.C05_valid_signature_wrong_id"
   ],
   "note": "Up to an explicit hash collision or a signature valid for two hashes; the ID field is proved not to be covered."
  },
  {
   "property": "C06",
   "status": "proved",
   "theorems": [
    "GoNostr.C06_matches_iff",
    "GoNostr.C06_matchesIgnoringTimestamps_iff",
    "GoNostr.C06_nil_event",
    "GoNostr.C06_empty_list_matches_nothing",
    "GoNostr.C06_map_order_irrelevant"
   ],
   "note": "All filters (nil versus empty lists, any tag map) and events, against the declarative NIP-01 predicate in Verif/Filter/Spec.lean."
  },
  {
   "property": "C07",
   "status": "proved",
   "theorems": [
    "GoNostr.C07_match_iff_exists",
    "GoNostr.C07_matchIgnoring_iff_exists",
    "GoNostr.C07_set_semantics",
    "GoNostr.C07_empty_and_nil",
    "GoNostr.C07_ignoring_is_weaker"
   ],
   "note": ""
  },
  {
   "property": "C08",
   "status": "partial",
   "theorems": [
    "GoNostr.C08_reflexive",
    "GoNostr.C08_transitive",
    "GoNostr.C08_equal_iff_fields",
    "GoNostr.C08_limit_ignored",
    "GoNostr.C08_not_symmetric",
    "GoNostr.C08_equal_filters_match_differently",
    "GoNostr.C08_symmetric_partial",
    "GoNostr.C08_equal_implies_same_matches_partial"
   ],
   "note": "Reflexivity, transitivity and a field-by-field characterization hold for all filters. Symmetry and \"equal filters match the same events\" are false in general (witnesses proved) and proved for duplicate-free filters with the same nil conditions."
  },
  {
   "property": "C09",
   "status": "proved",
   "theorems": [
    "GoNostr.C09_clone_equal",
    "GoNostr.C09_clone_independent",
    "GoNostr.C09_clone_disjoint",
    "GoNostr.C09_clone_filterEqual"
   ],
   "note": "Heap model with references: same value, no shared object, arbitrary later writes on either side invisible to the other."
  },
  {
   "property": "C10",
   "status": "partial",
   "theorems": [
    "GoNostr.C10_limit_bounds_results_partial",
    "GoNostr.C10_limit_exceeded_with_two_d_tags"
   ],
   "note": "Bound proved for conforming stores whose addressable events carry at most one d value; without that hypothesis the bound is false (witness proved)."
  },
  {
   "property": "C11",
   "status": "proved",
   "theorems": [
    "GoNostr.C11_predicates",
    "GoNostr.C11_partition"
   ],
   "note": "Negative kinds are classified as regular by the code; stated explicitly."
  },
  {
   "property": "C12",
   "status": "proved",
   "theorems": [
    "GoNostr.C12_find",
    "GoNostr.C12_findWithValue",
    "GoNostr.C12_findLast",
    "GoNostr.C12_findLastWithValue",
    "GoNostr.C12_findAll",
    "GoNostr.C12_getD",
    "GoNostr.C12_containsAny"
   ],
   "note": ""
  },
  {
   "property": "C13",
   "status": "partial",
   "theorems": [
    "GoNostr.C13_startsWith_spec",
    "GoNostr.C13_startsWith_empty_prefix_panics",
    "GoNostr.C13_appendUnique_empty_tag_panics",
    "GoNostr.C13_filterOut_partial",
    "GoNostr.C13_getAll_partial",
    "GoNostr.C13_getFirst_partial",
    "GoNostr.C13_getLast_partial",
    "GoNostr.C13_filterOutInPlace_partial",
    "GoNostr.C13_appendUnique_partial",
    "GoNostr.C13_appendUnique_may_drop_value"
   ],
   "note": "Proved for non-empty prefixes; with an empty prefix (or an empty tag) every operation panics on a non-empty list, which is also proved. AppendUnique is proved to compare by prefix, so it may drop a new value (witness)."
  },
  {
   "property": "C14",
   "status": "partial",
   "theorems": [
    "GoNostr.C14_clone_never_equal",
    "GoNostr.C14_clone_partial"
   ],
   "note": "False of the code: Clone and CloneDeep always return nil (proved), so cloning works only for nil/empty tag lists."
  },
  {
   "property": "C15",
   "status": "proved",
   "theorems": [
    "GoNostr.C15_compareEvent_spec",
    "GoNostr.C15_strict_order",
    "GoNostr.C15_antisymmetric",
    "GoNostr.C15_reverse",
    "GoNostr.C15_pointer_variants",
    "GoNostr.C15_pointer_transitive"
   ],
   "note": ""
  },
  {
   "property": "C16",
   "status": "proved",
   "theorems": [
    "GoNostr.C16_names_iff",
    "GoNostr.C16_subid_roundtrip",
    "GoNostr.C16_subid_distinct",
    "GoNostr.C16_no_colon",
    "GoNostr.C16_never_panics"
   ],
   "note": "Any label, serials that fit int64; the parser is also proved never to panic."
  },
  {
   "property": "C17",
   "status": "partial",
   "theorems": [
    "GoNostr.C17_extractDTag_total",
    "GoNostr.C17_extractTimestamp_total",
    "GoNostr.C17_extractSubID_panics_iff",
    "GoNostr.C17_extractEventID_panics_iff",
    "GoNostr.C17_extractEventPubKey_panics_iff",
    "GoNostr.C17_relay_can_crash_reader",
    "GoNostr.C17_preparse_ok_partial"
   ],
   "note": "extractDTag and extractTimestamp never panic on any byte string. For the subscription id, event id and pubkey extractors the exact panic condition is proved, with a relay message that crashes the reader; on inputs without that truncation they do not panic."
  },
  {
   "property": "C18",
   "status": "partial",
   "theorems": [
    "GoNostr.Json.C18_agrees_partial",
    "GoNostr.Json.C18_dTag_partial",
    "GoNostr.Json.C18_relay_layout",
    "GoNostr.Json.C18_own_layout"
   ],
   "note": "For the layout this package writes (any event with hex id and key): C18_agrees_partial (id, key, timestamp not negative; together with full parsing of the same message) and C18_dTag_partial (d tag whose value needs no escapes, no tag of the name d alone). False in general: C18_relay_layout for layouts a relay may choose, C18_own_layout for the remaining cases of the own layout."
  },
  {
   "property": "C19",
   "status": "partial",
   "theorems": [
    "GoNostr.C19_isValid32ByteHex_iff",
    "GoNostr.C19_accepts_encodings",
    "GoNostr.C19_isValidPublicKey_64",
    "GoNostr.C19_isValidPublicKey_length_partial",
    "GoNostr.C19_isValidPublicKey_accepts_65"
   ],
   "note": "IsValid32ByteHex: exact characterization. IsValidPublicKey: exact on 64-character strings; a 65-character string is accepted (witness), so the full claim is false."
  },
  {
   "property": "C20",
   "status": "proved",
   "theorems": [
    "GoNostr.C20_normalize_spec",
    "GoNostr.C20_normalize_idempotent",
    "GoNostr.C20_space_in_prefix_not_idempotent"
   ],
   "note": "Stated for machine-readable prefixes without a space; the behaviour with a space in the prefix is exhibited separately."
  },
  {
   "property": "C21",
   "status": "proved",
   "theorems": [
    "GoNostr.Json.C21_trailing_rejected",
    "GoNostr.Json.C21_any_layout",
    "GoNostr.Json.C21_any_order",
    "GoNostr.Json.C21_any_strings",
    "GoNostr.Json.C21_into_used",
    "GoNostr.Json.C21_round_trip",
    "GoNostr.Json.C21_not_utf8_changes"
   ],
   "note": "Exact model of the generated encoder and decoder over a model of easyjson's lexer and writer. C21_round_trip for UTF-8 strings; C21_any_strings says what happens to others; C21_any_order/_any_layout: any legal layout is read."
  },
  {
   "property": "C22",
   "status": "partial",
   "theorems": [
    "GoNostr.Json.C22_any_layout",
    "GoNostr.Json.C22_what_arrives",
    "GoNostr.Json.C22_same_meaning_partial",
    "GoNostr.Json.C22_never_narrower",
    "GoNostr.Json.C22_empty_list_widens",
    "GoNostr.Json.C22_nil_values_narrow",
    "GoNostr.Json.C22_tag_names"
   ],
   "note": "C22_what_arrives gives the filter that arrives for every writable filter; C22_same_meaning_partial: plain filters keep their meaning; C22_any_layout: every legal layout is read. False in general: empty lists widen (C22_empty_list_widens), nil tag values narrow (C22_nil_values_narrow), odd tag names break or inject (C22_tag_names)."
  },
  {
   "property": "C23",
   "status": "partial",
   "theorems": [
    "GoNostr.Json.C23_any_layout",
    "GoNostr.Json.C23_what_arrives",
    "GoNostr.Json.C23_round_trip_partial",
    "GoNostr.Json.C23_ok_only_true",
    "GoNostr.Json.C23_kind_is_label",
    "GoNostr.Json.C23_unknown_label",
    "GoNostr.Json.C23_quote_in_id",
    "GoNostr.Json.C23_req_without_filters",
    "GoNostr.Json.C23_long_hll",
    "GoNostr.Json.C23_auth_both"
   ],
   "note": "C23_any_layout reads every legal layout of every message; C23_what_arrives/C23_round_trip_partial for every envelope that can be sent; C23_kind_is_label and C23_unknown_label for all byte strings. False for identifiers with quotes (C23_quote_in_id), REQ without filters, HyperLogLogs over 256 bytes (panic) and AUTH with both parts. json-iterator reading a COUNT answer is a parameter with a contract (ReadsCount, shown satisfiable)."
  },
  {
   "property": "C24",
   "status": "proved",
   "theorems": [
    "GoNostr.Sub.C24_new_filters_not_applied",
    "GoNostr.Sub.C24_only_matching_authentic"
   ],
   "note": "Every schedule and message sequence; the envelope parser and the signature check are arbitrary functions. The filters must not be replaced through Sub meanwhile: replaced filters are proved not to be applied until the EOSE."
  },
  {
   "property": "C25",
   "status": "proved",
   "theorems": [
    "GoNostr.Sub.C25_skipped",
    "GoNostr.Sub.C25_not_skipped",
    "GoNostr.Sub.C25_at_most_once",
    "GoNostr.Sub.C25_none_dropped",
    "GoNostr.Sub.C25_progress"
   ],
   "note": "At most once on every schedule; exact accounting (nothing dropped) for a fired, not ending subscription without a duplicate check, plus progress."
  },
  {
   "property": "C26",
   "status": "proved",
   "theorems": [
    "GoNostr.Sub.C26_eose_once",
    "GoNostr.Sub.C26_eose_after_stored",
    "GoNostr.Sub.C26_dropped_only_when_ending"
   ],
   "note": ""
  },
  {
   "property": "C27",
   "status": "partial",
   "theorems": [
    "GoNostr.Sub.C27_send_on_closed_channel",
    "GoNostr.Sub.C27_no_send_after_close_partial",
    "GoNostr.Sub.C27_ends_cleanly",
    "GoNostr.Sub.C27_internal_terminates"
   ],
   "note": "Proved for a subscription that is fired before messages for it arrive and not fired again; otherwise a send on the closed channel is possible (crashing run proved). Clean termination and finiteness hold on every schedule."
  },
  {
   "property": "C28",
   "status": "proved",
   "theorems": [
    "GoNostr.Sub.C28_close_at_most_once_per_fire",
    "GoNostr.Sub.C28_close_at_most_once",
    "GoNostr.Sub.C28_none_after_closed",
    "GoNostr.Sub.C28_removed"
   ],
   "note": "A goroutine that had already won the compare-and-swap before the CLOSED was processed may still write its CLOSE; stated in the theorem."
  },
  {
   "property": "C29",
   "status": "partial",
   "theorems": [
    "GoNostr.Pub.C29_nil_means_accepted_partial",
    "GoNostr.Pub.C29_nil_clean",
    "GoNostr.Pub.C29_rejection_has_reason",
    "GoNostr.Pub.C29_ctx_error",
    "GoNostr.Pub.C29_marks",
    "GoNostr.Pub.C29_disconnect_reports_success",
    "GoNostr.Pub.C29_race_reports_success"
   ],
   "note": "Proved while the connection is up and the caller context has not ended; a lost connection, and a deadline racing with a rejecting OK, make Publish return nil (runs proved)."
  },
  {
   "property": "C30",
   "status": "partial",
   "theorems": [
    "GoNostr.Pub.C30_ok_only_for_its_id",
    "GoNostr.Pub.C30_ok_reaches_its_call_partial",
    "GoNostr.Pub.C30_completes",
    "GoNostr.Pub.C30_same_id_starves"
   ],
   "note": "Proved for pairwise distinct ids; two concurrent publishes of one id starve each other (run proved)."
  },
  {
   "property": "C31",
   "status": "partial",
   "theorems": [
    "GoNostr.Sub.C31_failed_write_cleans_up_partial",
    "GoNostr.Sub.C31_not_connected_leaks",
    "GoNostr.Sub.C31_count_leaks"
   ],
   "note": "Proved when the request cannot be written; Subscribe without a connection and Count with other than one filter leave the subscription registered (proved)."
  },
  {
   "property": "C32",
   "status": "partial",
   "theorems": [
    "GoNostr.Fetch.C32_at_most_once",
    "GoNostr.Fetch.C32_at_most_once_ids",
    "GoNostr.Fetch.C32_only_received",
    "GoNostr.Fetch.C32_complete_partial",
    "GoNostr.Fetch.C32_forged_copy_suppresses",
    "GoNostr.Fetch.C32_live_copy_suppresses"
   ],
   "note": "At most once and only-received hold on every schedule. Completeness is proved for an id whose every received copy is valid and which no live copy races; a forged or cancelled copy suppresses a genuine one (runs proved)."
  },
  {
   "property": "C33",
   "status": "proved",
   "theorems": [
    "GoNostr.Fetch.C33_closed_once_at_end",
    "GoNostr.Fetch.C33_nothing_after_close",
    "GoNostr.Fetch.C33_closes_when_all_done",
    "GoNostr.Fetch.C33_cancel_closes",
    "GoNostr.Fetch.C33_empty_closes"
   ],
   "note": ""
  },
  {
   "property": "C34",
   "status": "partial",
   "theorems": [
    "GoNostr.Replaceable.C34_returns_delivered_partial",
    "GoNostr.Replaceable.C34_newest_never_returned",
    "GoNostr.Replaceable.C34_refuted"
   ],
   "note": "Only soundness holds (what is returned was delivered, is valid and has the right key). The duplicate check is inverted: the newest version delivered once is proved never to be returned."
  },
  {
   "property": "C35",
   "status": "partial",
   "theorems": [
    "GoNostr.SubMany.C35_closed_once_partial",
    "GoNostr.SubMany.C35_single_never_crashes",
    "GoNostr.SubMany.C35_duplicates_never_close",
    "GoNostr.SubMany.C35_empty_never_closes",
    "GoNostr.SubMany.C35_double_close",
    "GoNostr.SubMany.C35_cancel_progress_partial"
   ],
   "note": "Closed at most once and never after a crash for distinct urls; duplicated urls or no urls never close, and a double close is reachable (runs proved)."
  },
  {
   "property": "C36",
   "status": "proved",
   "theorems": [
    "GoNostr.SubMany.C36_notified_after_all",
    "GoNostr.SubMany.C36_fires_when_all"
   ],
   "note": "Fires only after every relay sent EOSE or ended, and fires then."
  },
  {
   "property": "C37",
   "status": "proved",
   "theorems": [
    "GoNostr.PubMany.C37_one_result_per_url",
    "GoNostr.PubMany.C37_send_never_blocks",
    "GoNostr.PubMany.C37_closes",
    "GoNostr.PubMany.C37_report_meaning"
   ],
   "note": "Every schedule of the workers and the reader, and the decision what a result says."
  },
  {
   "property": "C38",
   "status": "proved",
   "theorems": [
    "GoNostr.Fetch.C38_auth_at_most_once",
    "GoNostr.Fetch.C38_retry_then_stop",
    "GoNostr.SubMany.C38_subscribe_many",
    "GoNostr.SubMany.C38_subscribe_many_on_demand"
   ],
   "note": "FetchMany and SubscribeMany."
  },
  {
   "property": "C39",
   "status": "partial",
   "theorems": [
    "GoNostr.Ensure.C39_never_refused",
    "GoNostr.Ensure.C39_redials_at_once",
    "GoNostr.Ensure.C39_penalty_grows_partial",
    "GoNostr.Ensure.C39_next_round_partial",
    "GoNostr.Ensure.C39_lifted_early"
   ],
   "note": "The penalty never refuses a dial at all (proved); penalties grow as stated, but a round of the ticker also lifts penalties that began while it slept (proved)."
  },
  {
   "property": "C40",
   "status": "proved",
   "theorems": [
    "GoNostr.Ensure.C40_one_live_connection",
    "GoNostr.Ensure.C40_reuse_or_replace"
   ],
   "note": "Per normalised url, any interleaving of callers."
  },
  {
   "property": "C41",
   "status": "proved",
   "theorems": [
    "GoNostr.SubMany.C41_bounds",
    "GoNostr.SubMany.C41_grows",
    "GoNostr.SubMany.C41_reaches_limit",
    "GoNostr.SubMany.C41_workers_follow"
   ],
   "note": ""
  },
  {
   "property": "C42",
   "status": "partial",
   "theorems": [
    "GoNostr.Pager.C42_limit_partial",
    "GoNostr.Pager.C42_only_fetched_in_range",
    "GoNostr.Pager.C42_single_relay_partial",
    "GoNostr.Pager.C42_limit_zero_sends_one",
    "GoNostr.Pager.C42_sends_twice",
    "GoNostr.Pager.C42_loses_ties",
    "GoNostr.Pager.C42_two_relays_lose"
   ],
   "note": "Limit (except LimitZero), range, and exactness for one relay with distinct timestamps and pages of at least two. Repeats, losses on ties and losses with two relays are proved as runs."
  },
  {
   "property": "C43",
   "status": "partial",
   "theorems": [
    "GoNostr.CountMany.C43_order_and_multiplicity_irrelevant_partial",
    "GoNostr.CountMany.C43_is_union_partial",
    "GoNostr.CountMany.C43_lost_update"
   ],
   "note": "For merges done one at a time the count is a function of the set of valid answers; the merges are unsynchronised and a lost update is proved as a run."
  },
  {
   "property": "C44",
   "status": "proved",
   "theorems": [
    "GoNostr.Neg.C44_varint_roundtrip",
    "GoNostr.Neg.C44_out_of_range_panics",
    "GoNostr.Neg.C44_injective"
   ],
   "note": "Round trip and injectivity for every value the encoder accepts; out-of-range values panic."
  },
  {
   "property": "C45",
   "status": "proved",
   "theorems": [
    "GoNostr.Neg.C45_bounds_roundtrip",
    "GoNostr.Neg.C45_decreasing_panics"
   ],
   "note": "Any sequence of bounds with non-decreasing timestamps; a decreasing timestamp is proved to panic."
  },
  {
   "property": "C46",
   "status": "partial",
   "theorems": [
    "GoNostr.Neg.C46_separates_partial",
    "GoNostr.Neg.C46_long_prefix_not_separated"
   ],
   "note": "Proved when the ids of two items with equal timestamps differ within the first 16 bytes; beyond that the bound does not separate them (witness proved)."
  },
  {
   "property": "C47",
   "status": "partial",
   "theorems": [
    "GoNostr.Neg.C47_add_partial",
    "GoNostr.Neg.C47_accumulate_partial",
    "GoNostr.Neg.C47_order_irrelevant_partial",
    "GoNostr.Neg.C47_lost_carry",
    "GoNostr.Neg.C47_equal_sets_equal_fingerprints"
   ],
   "note": "The accumulator adds modulo 2^256 in any order as long as no addition of a full 32-bit word meets a carry; the lost carry is exhibited as a witness. Equal sets always get equal fingerprints."
  },
  {
   "property": "C48",
   "status": "proved",
   "theorems": [
    "GoNostr.Neg.C48_findLowerBound",
    "GoNostr.Neg.C48_seal_sorts",
    "GoNostr.Neg.C48_built",
    "GoNostr.Neg.C48_insert_after_seal"
   ],
   "note": ""
  },
  {
   "property": "C49",
   "status": "proved",
   "theorems": [
    "GoNostr.Neg.C49_split_partitions"
   ],
   "note": "For sealed vectors whose neighbours the minimal bound separates."
  },
  {
   "property": "C50",
   "status": "partial",
   "theorems": [
    "GoNostr.Neg.C50_both_limits_lose",
    "GoNostr.Neg.C50_limit_repeats",
    "GoNostr.Neg.C50_limits_partial",
    "GoNostr.Neg.C50_small_limits_refused",
    "GoNostr.Neg.C50_reconciliation_partial"
   ],
   "note": "Byte-level refinement of Start/Reconcile on both sides. With no frame size limit: any vectors, termination bound and exact reports, each once. With any limits New accepts: termination bound, no error or panic, and only true differences are reported, even if fingerprints collide; every difference is reported if fingerprints do not collide and at most one side has a limit. False otherwise, each shown by a session whose fingerprints do not collide: with the same accepted limit on both sides the session can end without ever reporting an item the client lacks (C50_both_limits_lose), and with a limit on the client alone the same id can be reported more than once (C50_limit_repeats)."
  },
  {
   "property": "C51",
   "status": "proved",
   "theorems": [
    "GoNostr.Nip19.C51_bech32_roundtrip",
    "GoNostr.Nip19.C51_rejects_wide_data",
    "GoNostr.Nip19.C51_regroup_roundtrip"
   ],
   "note": "The external bech32 library is modelled from its published algorithm, polymod and all."
  },
  {
   "property": "C52",
   "status": "proved",
   "theorems": [
    "GoNostr.Nip19.C52_keys_roundtrip",
    "GoNostr.Nip19.C52_encode_rejects",
    "GoNostr.Nip19.C52_codes_injective"
   ],
   "note": ""
  },
  {
   "property": "C53",
   "status": "partial",
   "theorems": [
    "GoNostr.Nip19.C53_nprofile_roundtrip",
    "GoNostr.Nip19.C53_nevent_roundtrip",
    "GoNostr.Nip19.C53_naddr_roundtrip_partial",
    "GoNostr.Nip19.C53_naddr_empty_identifier_lost",
    "GoNostr.Nip19.C53_long_relay_corrupted",
    "GoNostr.Nip19.C53_pointer_roundtrip_partial",
    "GoNostr.Nip19.C53_event_kind_lost"
   ],
   "note": "nprofile and nevent round trip for relays of at most 255 bytes; naddr additionally needs a non-empty identifier (loss proved). Longer relays are corrupted and the event kind is not recovered by the generic pointer path (witnesses proved)."
  },
  {
   "property": "C54",
   "status": "partial",
   "theorems": [
    "GoNostr.Nip19.C54_decode_no_panic_partial",
    "GoNostr.Nip19.C54_naddr_short_kind_panics",
    "GoNostr.Nip19.C54_toPointer_no_new_panic"
   ],
   "note": "Decode does not panic on any string whose naddr kind entries have at least four bytes; a shorter kind entry panics (witness proved). ToPointer adds no panic of its own."
  },
  {
   "property": "C55",
   "status": "proved",
   "theorems": [
    "GoNostr.Nip44.C55_bucket_rule",
    "GoNostr.Nip44.C55_small",
    "GoNostr.Nip44.C55_rejects",
    "GoNostr.Nip44.C55_padded_length",
    "GoNostr.Nip44.C55_unpad_pad"
   ],
   "note": ""
  },
  {
   "property": "C56",
   "status": "proved",
   "theorems": [
    "GoNostr.Nip44.C56_roundtrip",
    "GoNostr.Nip44.C56_encrypt_errors",
    "GoNostr.Nip44.C56_layout"
   ],
   "note": "ChaCha20, HMAC and HKDF are parameters with their length and involution contracts."
  },
  {
   "property": "C57",
   "status": "partial",
   "theorems": [
    "GoNostr.Nip44.C57_accepts_only_authentic",
    "GoNostr.Nip44.C57_tampered_rejected",
    "GoNostr.Nip44.C57_panics_iff_only_line_breaks"
   ],
   "note": "Accepting implies that the MAC verified, and any change to authenticated bytes is rejected unless it is a MAC collision. Decrypt panics on exactly the payloads made of line breaks only within the size limits (proved), so \"always an error\" is false."
  },
  {
   "property": "C58",
   "status": "partial",
   "theorems": [
    "GoNostr.Nip04.C58_roundtrip",
    "GoNostr.Nip04.C58_decrypt_panics_iff",
    "GoNostr.Nip04.C58_panic_witness"
   ],
   "note": "Round trip for every key size, iv and message. Malformed content: exact panic condition proved, with a witness, so \"always an error\" is false."
  },
  {
   "property": "C59",
   "status": "partial",
   "theorems": [
    "GoNostr.Nip49.C59_roundtrip",
    "GoNostr.Nip49.C59_encrypt_rejects",
    "GoNostr.Nip49.C59_decrypt_panics_iff",
    "GoNostr.Nip49.C59_panic_witness"
   ],
   "note": "Round trip for every key, password, salt, nonce and security byte. Malformed codes: exact panic condition proved, with a witness, so \"always an error\" is false."
  },
  {
   "property": "C60",
   "status": "proved",
   "theorems": [
    "GoNostr.Pow.C60_difficultyBytes",
    "GoNostr.Pow.C60_difficulty",
    "GoNostr.Pow.C60_difficulty_getID",
    "GoNostr.Pow.C60_check",
    "GoNostr.Pow.C60_committed",
    "GoNostr.Pow.C60_short_id_panics"
   ],
   "note": ""
  },
  {
   "property": "C61",
   "status": "partial",
   "theorems": [
    "GoNostr.Pow.C61_result_valid",
    "GoNostr.Pow.C61_errors",
    "GoNostr.Pow.C61_nonces_tried",
    "GoNostr.Pow.C61_partition",
    "GoNostr.Pow.C61_stops",
    "GoNostr.Pow.C61_earlier_nonce_hides_result"
   ],
   "note": "Result validity, disjoint nonces, errors and stopping are proved. CommittedDifficulty of the result equals the target only if the event had no nonce tag before (counterexample proved)."
  },
  {
   "property": "C62",
   "status": "proved",
   "theorems": [
    "GoNostr.HLL.C62_registers_are_max_ranks",
    "GoNostr.HLL.C62_order_and_repetition_irrelevant",
    "GoNostr.HLL.C62_merge_is_union",
    "GoNostr.HLL.C62_merge_semilattice",
    "GoNostr.HLL.C62_clear",
    "GoNostr.HLL.C62_add_eq_addBytes"
   ],
   "note": ""
  },
  {
   "property": "C63",
   "status": "proved",
   "theorems": [
    "GoNostr.HLL.C63_add_in_range",
    "GoNostr.HLL.C63_values_bounded",
    "GoNostr.HLL.C63_merge_bounded",
    "GoNostr.HLL.C63_bad_shapes_panic",
    "GoNostr.HLL.C63_filter_offset_range"
   ],
   "note": "Values are those of the integer tables; floating-point steps of the estimator are not modelled."
  },
  {
   "property": "C64",
   "status": "proved",
   "theorems": [
    "GoNostr.HLL.C64_event_offsets_agree_with_filter",
    "GoNostr.HLL.C64_all_followed_are_yielded"
   ],
   "note": ""
  },
  {
   "property": "C65",
   "status": "partial",
   "theorems": [
    "GoNostr.Ptr.C65_from_tag_valid",
    "GoNostr.Ptr.C65_profile_roundtrip",
    "GoNostr.Ptr.C65_event_roundtrip_partial",
    "GoNostr.Ptr.C65_entity_roundtrip",
    "GoNostr.Ptr.C65_fromTag_panics_iff",
    "GoNostr.Ptr.C65_author_lost",
    "GoNostr.Ptr.C65_large_kind_rejected",
    "GoNostr.Ptr.C65_event_filter",
    "GoNostr.Ptr.C65_entity_filter_partial",
    "GoNostr.Ptr.C65_entity_filter_finds",
    "GoNostr.Ptr.C65_entity_filter_differs",
    "GoNostr.Ptr.C65_profile_filter_differs"
   ],
   "note": "Round trips for profile and entity pointers with at most one relay; the author of an event pointer is dropped by AsTag (proved). Filters agree with MatchesEvent for event pointers; for entity pointers exactly when the first d tag is the identifier; both differences are proved as witnesses."
  },
  {
   "property": "C66",
   "status": "partial",
   "theorems": [
    "GoNostr.Thread.C66_root_marked",
    "GoNostr.Thread.C66_root_positional",
    "GoNostr.Thread.C66_root_nil_iff",
    "GoNostr.Thread.C66_bad_root_gives_empty_pointer",
    "GoNostr.Thread.C66_parent_reply",
    "GoNostr.Thread.C66_parent_fallback",
    "GoNostr.Thread.C66_parent_nil_iff",
    "GoNostr.Thread.C66_reply_to_address_lost"
   ],
   "note": "All precedence rules and the nil cases are proved; invalid marked roots and replies marked on an \"a\" tag give an empty pointer instead of falling back (proved as witnesses)."
  },
  {
   "property": "C67",
   "status": "proved",
   "theorems": [
    "GoNostr.Thread.C67_root",
    "GoNostr.Thread.C67_parent",
    "GoNostr.Thread.C67_nil_iff"
   ],
   "note": "An invalid reference gives an empty pointer."
  },
  {
   "property": "C68",
   "status": "proved",
   "theorems": [
    "GoNostr.Thread.C68_first_tag",
    "GoNostr.Thread.C68_roundtrip",
    "GoNostr.Thread.C68_none"
   ],
   "note": ""
  },
  {
   "property": "C69",
   "status": "proved",
   "theorems": [
    "GoNostr.Auth.C69_validate_iff",
    "GoNostr.Auth.C69_returned_key_signed",
    "GoNostr.Auth.C69_created_event_accepted"
   ],
   "note": "URL parsing and lowercasing are parameters."
  },
  {
   "property": "C70",
   "status": "partial",
   "theorems": [
    "GoNostr.Gift.C70_unwrap_iff",
    "GoNostr.Gift.C70_roundtrip",
    "GoNostr.Gift.C70_wrap_signed_by_throwaway",
    "GoNostr.Gift.C70_seal_kind_unchecked"
   ],
   "note": "The sender is authenticated for every wrap and the round trip holds; JSON and encryption enter as contracts, which C120_both_read shows the real codec, keyer and nip44 to meet. The kind of the seal is not checked (witness)."
  },
  {
   "property": "C71",
   "status": "partial",
   "theorems": [
    "GoNostr.Sdk.C71_refines_map",
    "GoNostr.Sdk.C71_buffer_aliasing",
    "GoNostr.Sdk.C71_closed"
   ],
   "note": "Refinement of a partial map for every history in which the caller does not write to a buffer handed to the store (the store keeps the caller's slice: witness); closed store covered."
  },
  {
   "property": "C72",
   "status": "partial",
   "theorems": [
    "GoNostr.Sdk.C72_codec",
    "GoNostr.Sdk.C72_event_relays_partial",
    "GoNostr.Sdk.C72_length_256_loses_record",
    "GoNostr.Sdk.C72_prefix_collision"
   ],
   "note": "Exact for urls of at most 255 bytes and per 8-byte id prefix; a 256-byte url destroys the record and ids sharing a prefix share relays (proved)."
  },
  {
   "property": "C73",
   "status": "partial",
   "theorems": [
    "GoNostr.Hints.C73_newest_kept",
    "GoNostr.Hints.C73_topn_partial",
    "GoNostr.Hints.C73_topn_zero_returns_all",
    "GoNostr.Hints.C73_panics",
    "GoNostr.Hints.C73_concurrent_save_misattributes"
   ],
   "note": "For histories of calls one after the other, n > 0 and any score function; n = 0 returns everything, n < 0 panics, and concurrent saves misattribute relays (proved). The floating point score is an arbitrary function."
  },
  {
   "property": "C74",
   "status": "proved",
   "theorems": [
    "GoNostr.Loader.C74_batches",
    "GoNostr.Loader.C74_answers",
    "GoNostr.Loader.C74_progress",
    "GoNostr.Loader.C74_duplicate_keys"
   ],
   "note": "The batch function may still be called with a repeated key (witness)."
  },
  {
   "property": "C75",
   "status": "proved",
   "theorems": [
    "GoNostr.Sdk.C75_newest_per_pubkey",
    "GoNostr.Sdk.C75_each_relay_asked"
   ],
   "note": ""
  },
  {
   "property": "C76",
   "status": "proved",
   "theorems": [
    "GoNostr.Sdk.C76_newest_per_d"
   ],
   "note": ""
  },
  {
   "property": "C77",
   "status": "partial",
   "theorems": [
    "GoNostr.Sdk.C77_characterisation_partial",
    "GoNostr.Sdk.C77_complete_when_new",
    "GoNostr.Sdk.C77_stops_at_duplicate"
   ],
   "note": "The loop stops at the first item already present (witness); exact characterisation proved."
  },
  {
   "property": "C78",
   "status": "partial",
   "theorems": [
    "GoNostr.Sdk.C78_first_occurrences",
    "GoNostr.Sdk.C78_sets",
    "GoNostr.Sdk.C78_accepted_tags",
    "GoNostr.Sdk.C78_relay_markers",
    "GoNostr.Sdk.C78_event_lists_always_empty"
   ],
   "note": "Holds for every parser; the event reference parser accepts nothing, so bookmark and pin lists are always empty (proved)."
  },
  {
   "property": "C79",
   "status": "partial",
   "theorems": [
    "GoNostr.Wot.C79_late_caller_waits_forever",
    "GoNostr.Wot.C79_one_load",
    "GoNostr.Wot.C79_own_outcome",
    "GoNostr.Wot.C79_progress_partial"
   ],
   "note": "A caller that registers after the load ended waits for ever (proved for every continuation). Otherwise: one load at a time, own outcomes only, and no deadlock."
  },
  {
   "property": "C80",
   "status": "partial",
   "theorems": [
    "GoNostr.Sdk.C80_rotation_partial",
    "GoNostr.Sdk.C80_overflow_panics"
   ],
   "note": "Below the overflow of the counter; beyond it Next panics (proved)."
  },
  {
   "property": "C81",
   "status": "partial",
   "theorems": [
    "GoNostr.Sdk.C81_hit_partial",
    "GoNostr.Sdk.C81_slot_iff",
    "GoNostr.Sdk.C81_suffix_collision"
   ],
   "note": "A hit was stored under a key with the same last eight hex characters; keys sharing them collide (proved)."
  },
  {
   "property": "C82",
   "status": "partial",
   "theorems": [
    "GoNostr.Nip60.C82_send_partial",
    "GoNostr.Nip60.C82_exact_spend_keeps_tokens",
    "GoNostr.Nip60.C82_error_keeps_tokens"
   ],
   "note": "Proved: a send that leaves change removes exactly the tokens used, keeps the others in order, adds one change token and lowers the balance by amount and fee. False for an exact spend, where nothing is removed (C82_exact_spend_keeps_tokens); errors leave the tokens as they were even after the swap. Mint answers, AmountSplit and signing are parameters with the contract Honest."
  },
  {
   "property": "C83",
   "status": "proved",
   "theorems": [
    "GoNostr.Nip60.C83_selection",
    "GoNostr.Nip60.C83_not_enough",
    "GoNostr.Nip60.C83_other_failures",
    "GoNostr.Nip60.C83_split_exact",
    "GoNostr.Nip60.C83_receive_underflows",
    "GoNostr.Nip60.C83_pay_change_underflows"
   ],
   "note": "Selection is sound and complete (prefixes in token order), errors and the panic are characterised, and the split is exact for the chosen tokens as long as their total plus the fee stays below 2^64. Beside it: the split does wrap in Receive and PayBolt11 (C83_receive_underflows, C83_pay_change_underflows)."
  },
  {
   "property": "C84",
   "status": "partial",
   "theorems": [
    "GoNostr.Nip60.C84_last_processed_wins",
    "GoNostr.Nip60.C84_hidden_then_public",
    "GoNostr.Nip60.C84_newest_partial",
    "GoNostr.Nip60.C84_older_event_overrides",
    "GoNostr.Nip60.C84_unreadable",
    "GoNostr.Nip60.C84_reported"
   ],
   "note": "False: the event processed last wins, even if it is older (C84_older_event_overrides). Proved: what the loader does for every sequence of readable events, and the property for events arriving oldest first that carry a key."
  },
  {
   "property": "C85",
   "status": "partial",
   "theorems": [
    "GoNostr.Nip60.C85_nutzap_never_locked",
    "GoNostr.Nip60.C85_locked_partial",
    "GoNostr.Nip60.C85_nostr_key_not_locked",
    "GoNostr.Nip60.C85_change_is_locked_too"
   ],
   "note": "False: for every valid nostr key (32 bytes) WithP2PK silently locks nothing, and no nutzap is ever locked (C85_nostr_key_not_locked, C85_nutzap_never_locked). Proved: if the key parses, all proofs sent are locked to it, and so is the change."
  },
  {
   "property": "C86",
   "status": "partial",
   "theorems": [
    "GoNostr.Bunker.C86_sessions_partial",
    "GoNostr.Bunker.C86_static",
    "GoNostr.Bunker.C86_unlocked_read",
    "GoNostr.Bunker.C86_dynamic_other_handler"
   ],
   "note": "Sequential histories: GetSession finds for each client the session first made for it, any history. Missing because false: GetSession and the dynamic signer read the slices without the lock (C86_unlocked_read), and sessions of a dynamic signer are kept by client only (C86_dynamic_other_handler)."
  },
  {
   "property": "C87",
   "status": "proved",
   "theorems": [
    "GoNostr.Bunker.C87_static_refused",
    "GoNostr.Bunker.C87_static_result_approved",
    "GoNostr.Bunker.C87_dynamic_refused",
    "GoNostr.Bunker.C87_dynamic_secret_ignored",
    "GoNostr.Bunker.C87_dynamic_connect_unauthorized"
   ],
   "note": "Both directions for the static signer, refusal for the dynamic one. C87_dynamic_secret_ignored (authorizers never see the secret) and C87_dynamic_connect_unauthorized (connect and get_public_key are not submitted to the authorizers) record the limits of what authorization covers."
  },
  {
   "property": "C88",
   "status": "partial",
   "theorems": [
    "GoNostr.Keyer.C88_plain_key",
    "GoNostr.Keyer.C88_plain_key_own",
    "GoNostr.Keyer.C88_encrypted_key_never_decrypts",
    "GoNostr.Keyer.C88_encrypted_key_encrypts_partial",
    "GoNostr.Keyer.C88_bunker_never_decrypts"
   ],
   "note": "Plain keyer: round trip proved from the nip44 model, after any calls. Missing because false: the encrypted-key keyer cannot decrypt at all, and the bunker keyer never gets back what it encrypted. Encrypting with an encrypted key is right."
  },
  {
   "property": "C89",
   "status": "partial",
   "theorems": [
    "GoNostr.Group.C89_merge_partial",
    "GoNostr.Group.C89_flags_stuck",
    "GoNostr.Group.C89_texts_stuck",
    "GoNostr.Group.C89_other_group_merged",
    "GoNostr.Group.C89_metadata_roundtrip_partial",
    "GoNostr.Group.C89_newest_name_partial",
    "GoNostr.Group.C89_members_added",
    "GoNostr.Group.C89_members_never_removed",
    "GoNostr.Group.C89_members_roundtrip_partial",
    "GoNostr.Group.C89_admins_doubled"
   ],
   "note": "Proved: merging under the stated conditions, members added, newest name, encode/decode round trips. Missing because false: flags and texts stay set, members are never removed, metadata of another group is merged, admins are doubled."
  },
  {
   "property": "C90",
   "status": "partial",
   "theorems": [
    "GoNostr.Blocks.C90_tiles_partial",
    "GoNostr.Blocks.C90_no_panic_partial",
    "GoNostr.Blocks.C90_panics"
   ],
   "note": "For every text: returned blocks tile it, and Parse does not panic unless a valid code is directly followed by a colon or the decoder panics. C90_panics is the excluded case with a real npub."
  },
  {
   "property": "C91",
   "status": "partial",
   "theorems": [
    "GoNostr.Codec.CalRead.C91_calendar_read",
    "GoNostr.Codec.C91_repository",
    "GoNostr.Codec.C91_repository_state",
    "GoNostr.Codec.C91_calendar_partial",
    "GoNostr.Codec.C91_calendar_image_lost",
    "GoNostr.Codec.C91_image_not_shown",
    "GoNostr.Codec.C91_file_metadata_partial",
    "GoNostr.Codec.C91_file_mime_lost",
    "GoNostr.Codec.C91_nutzap_info",
    "GoNostr.Codec.C91_nutzap_info_reuse",
    "GoNostr.Codec.C91_history_partial",
    "GoNostr.Codec.C91_history_zero_lost",
    "GoNostr.Codec.FileRead.C91_file_read",
    "GoNostr.Codec.FileRead.C91_display",
    "GoNostr.Codec.FileRead.C91_displayed_is_thumb"
   ],
   "note": "Repositories, repository states and nutzap infos round trip. Calendar events (image, time zones), file metadata (mime type, image, thumb) and history entries (order, zero amount) do not; the theorems state exactly what comes back. As the mime type is never read, the url of an image file is never displayed (C91_image_not_shown)."
  },
  {
   "property": "C92",
   "status": "proved",
   "theorems": [
    "GoNostr.Nip19.C92_decode_wellformed"
   ],
   "note": ""
  },
  {
   "property": "C93",
   "status": "partial",
   "theorems": [
    "GoNostr.Sdk.C93_list_newest_partial",
    "GoNostr.Sdk.C93_sets_refresh",
    "GoNostr.Sdk.C93_short_pubkey_panics"
   ],
   "note": "Lists: proved for pubkeys of at least 16 characters. Sets panic when the network fetch fails and are overwritten by older ones; short keys panic (proved)."
  },
  {
   "property": "C94",
   "status": "partial",
   "theorems": [
    "GoNostr.Nip60.C94_stored_events",
    "GoNostr.Nip60.C94_later_deletion_partial",
    "GoNostr.Nip60.C94_deleted_token_returns"
   ],
   "note": "Proved: at the end of stored events the wallet holds exactly the tokens received and not deleted, for all orders; later deletions take effect until the token event is received again. False for a token arriving after its deletion once stored events have ended (C94_deleted_token_returns). The end-of-stored-events step is atomic in the model."
  },
  {
   "property": "C95",
   "status": "partial",
   "theorems": [
    "GoNostr.Bunker.C95_static_partial",
    "GoNostr.Bunker.C95_empty_result_loses_id",
    "GoNostr.Bunker.C95_dynamic_partial",
    "GoNostr.Bunker.C95_dynamic_empty_result"
   ],
   "note": "Both signers, provided no operation succeeds with an empty text. C95_empty_result_loses_id and C95_dynamic_empty_result show that this is not always so and what happens then."
  },
  {
   "property": "C96",
   "status": "partial",
   "theorems": [
    "GoNostr.Bunker.C96_static_partial",
    "GoNostr.Bunker.C96_static_panics",
    "GoNostr.Bunker.C96_dynamic_partial",
    "GoNostr.Bunker.C96_dynamic_panics",
    "GoNostr.Bunker.C96_get_relays_panics"
   ],
   "note": "C96_static_partial and C96_dynamic_partial: no history panics outside the decryption of a text, for the dynamic signer if it has a relay source. Refuted: C96_static_panics, C96_dynamic_panics (with the real decryption in C169), C96_get_relays_panics."
  },
  {
   "property": "C97",
   "status": "partial",
   "theorems": [
    "GoNostr.Keyer.C97_encrypted_key_partial",
    "GoNostr.Keyer.C97_wrong_key_cached"
   ],
   "note": "Encrypted keys, provided every event given to SignEvent has an empty public key or the right one; C97_wrong_key_cached is the exception."
  },
  {
   "property": "C98",
   "status": "proved",
   "theorems": [
    "GoNostr.Blocks.C98_pointers"
   ],
   "note": "For every content for which Parse comes to its end (C90 says when it does)."
  },
  {
   "property": "C99",
   "status": "partial",
   "theorems": [
    "GoNostr.Json.C99_extra_member_rejected",
    "GoNostr.Json.C99_witness",
    "GoNostr.Json.C99_null_ignored_partial"
   ],
   "note": "False: C99_extra_member_rejected shows every object with an unknown non-null member is rejected, for all layouts. Null members are ignored (C99_null_ignored_partial)."
  },
  {
   "property": "C100",
   "status": "partial",
   "theorems": [
    "GoNostr.Json.C100_round_trip_partial",
    "GoNostr.Json.C100_error_lost",
    "GoNostr.Json.C100_error_of_nip77"
   ],
   "note": "C100_round_trip_partial for open, message and close through both parsers. False for error messages: C100_error_lost (NEG-ERROR is written, NEG-ERR is read)."
  },
  {
   "property": "C101",
   "status": "partial",
   "theorems": [
    "GoNostr.Json.C101_crash",
    "GoNostr.Json.C101_no_crash_partial",
    "GoNostr.Json.C101_crash_iff"
   ],
   "note": "False: C101_crash; C101_crash_iff says exactly which messages crash the client, C101_no_crash_partial that the others do not."
  },
  {
   "property": "C102",
   "status": "proved",
   "theorems": [
    "GoNostr.Client.C102_own_answer",
    "GoNostr.Client.C102_own_error",
    "GoNostr.Client.C102_one_call",
    "GoNostr.Client.C102_no_leak"
   ],
   "note": "Trace invariant over all interleavings; ids distinct below 2^64 calls."
  },
  {
   "property": "C103",
   "status": "partial",
   "theorems": [
    "GoNostr.Client.C103_crash",
    "GoNostr.Client.C103_crash_second_answer",
    "GoNostr.Client.C103_no_crash_partial",
    "GoNostr.Client.C103_crash_by_anyone",
    "GoNostr.Client.C103_stall"
   ],
   "note": "Refuted: C103_crash (cancelled call whose answer is pending), C103_crash_second_answer, C103_crash_by_anyone (decryption that panics), C103_stall. C103_no_crash_partial proves it for runs without ended contexts, with distinct answer ids and without such events."
  },
  {
   "property": "C104",
   "status": "partial",
   "theorems": [
    "GoNostr.Client.C104_never_called"
   ],
   "note": "Refuted: C104_never_called proves that the handler is never called, in any run, since no call is ever registered as expecting an url."
  },
  {
   "property": "C105",
   "status": "partial",
   "theorems": [
    "GoNostr.Client.C105_valid_partial",
    "GoNostr.Client.C105_no_panic",
    "GoNostr.Client.C105_other_event"
   ],
   "note": "C105_valid_partial proves id and signature, C105_no_panic the absence of panics. Refuted: C105_other_event, any correctly signed event is accepted for any requested one."
  },
  {
   "property": "C106",
   "status": "partial",
   "theorems": [
    "GoNostr.NegSync.C106_ends_partial",
    "GoNostr.NegSync.C106_hangs",
    "GoNostr.NegSync.C106_both_fits"
   ],
   "note": "C106_ends_partial proves it whenever at most 64 ids differ in a direction that is not transferred, C106_both_fits that this is always so for Both. Refuted: C106_hangs, a one-way sync never returns otherwise."
  },
  {
   "property": "C107",
   "status": "partial",
   "theorems": [
    "GoNostr.NegSync.C107_lost",
    "GoNostr.NegSync.C107_all_transferred_partial",
    "GoNostr.NegSync.C107_no_stranger_partial"
   ],
   "note": "C107_all_transferred_partial and C107_no_stranger_partial prove it for runs in which no giveback is interrupted. Refuted: C107_lost, giveback takes no lock, two goroutines share a list, an id is never requested."
  },
  {
   "property": "C108",
   "status": "partial",
   "theorems": [
    "GoNostr.Neg.AfterEnd.C108_after_end",
    "GoNostr.Neg.C108_second_end",
    "GoNostr.Neg.C108_long_bound",
    "GoNostr.Neg.C108_decreasing",
    "GoNostr.Neg.C108_wellformed_partial",
    "GoNostr.Neg.C108_server_partial",
    "GoNostr.Neg.C108_tame_partial"
   ],
   "note": "C108_tame_partial proves it for arbitrary bytes whose readable bounds are as the protocol has them, with any frame size limit; C108_wellformed_partial and C108_server_partial that well-formed messages are processed. Refuted: C108_second_end (a second final message crashes every client), C108_long_bound (crashes every client and server), C108_decreasing."
  },
  {
   "property": "C109",
   "status": "partial",
   "theorems": [
    "GoNostr.Sdk.C109_reads_partial",
    "GoNostr.Sdk.C109_bad_npub_panics",
    "GoNostr.Sdk.C109_bad_nprofile_panics",
    "GoNostr.Sdk.C109_keyless_profile",
    "GoNostr.Sdk.C109_idless_event",
    "GoNostr.Sdk.C109_panics_partial"
   ],
   "note": "C109_reads_partial says what is returned for every input, C109_panics_partial when it crashes. Refuted: C109_bad_npub_panics and C109_bad_nprofile_panics (codes whose key has the wrong length crash), C109_keyless_profile and C109_idless_event (codes without key or id give pointers without them)."
  },
  {
   "property": "C110",
   "status": "partial",
   "theorems": [
    "GoNostr.Sdk.C110_points_partial",
    "GoNostr.Sdk.C110_found",
    "GoNostr.Sdk.C110_profile_any_event",
    "GoNostr.Sdk.C110_not_newest",
    "GoNostr.Sdk.C110_stale",
    "GoNostr.Sdk.C110_newest_partial"
   ],
   "note": "C110_points_partial and C110_found prove soundness and completeness for event pointers, C110_newest_partial the newest version among the answers of one round. Refuted: C110_profile_any_event, C110_not_newest, C110_stale."
  },
  {
   "property": "C111",
   "status": "partial",
   "theorems": [
    "GoNostr.Sdk.C111_priority_last",
    "GoNostr.Sdk.C111_author_relay_not_asked",
    "GoNostr.Sdk.C111_hints_asked_partial",
    "GoNostr.Sdk.C111_at_most_two"
   ],
   "note": "C111_hints_asked_partial proves that relays named in the pointer are asked. Refuted: C111_priority_last (the relays named come last), C111_author_relay_not_asked, C111_at_most_two (WithRelays never names more than two)."
  },
  {
   "property": "C112",
   "status": "partial",
   "theorems": [
    "GoNostr.Sdk.C112_source_partial",
    "GoNostr.Sdk.C112_n_ignored",
    "GoNostr.Sdk.C112_fallback_ignores_n",
    "GoNostr.Sdk.C112_short_key_panics",
    "GoNostr.Sdk.C112_no_other_panic",
    "GoNostr.Sdk.C112_listed_partial"
   ],
   "note": "C112_source_partial and C112_listed_partial prove where the answer comes from, C112_no_other_panic when it does not panic. Refuted: C112_n_ignored and C112_fallback_ignores_n, C112_short_key_panics."
  },
  {
   "property": "C113",
   "status": "partial",
   "theorems": [
    "GoNostr.Sdk.C113_only_asked_partial",
    "GoNostr.Sdk.C113_first_page_empty",
    "GoNostr.Sdk.C113_local_events_missing",
    "GoNostr.Sdk.C113_continues_partial",
    "GoNostr.Sdk.C113_next_starts_partial",
    "GoNostr.Sdk.C113_mark_reset",
    "GoNostr.Sdk.C113_local_suffices"
   ],
   "note": "C113_only_asked_partial proves that the page has only events that were asked for, newest first; C113_continues_partial that paging goes on from the mark without gaps; C113_local_suffices that nothing is fetched when the store has enough. Refuted: C113_first_page_empty, C113_local_events_missing."
  },
  {
   "property": "C114",
   "status": "partial",
   "theorems": [
    "GoNostr.Sdk.C114_right_user_partial",
    "GoNostr.Sdk.C114_never_older_partial",
    "GoNostr.Sdk.C114_newest_partial",
    "GoNostr.Sdk.C114_not_before_a_week",
    "GoNostr.Sdk.C114_other_users_profile",
    "GoNostr.Sdk.C114_stale",
    "GoNostr.Sdk.C114_refused_write_goes_back",
    "GoNostr.Sdk.C114_short_name_panics",
    "GoNostr.Sdk.C114_short_name",
    "GoNostr.Sdk.ProfileKind.C114_parses_iff",
    "GoNostr.Sdk.ProfileKind.C114_bad_answer_ignored"
   ],
   "note": "C114_right_user_partial, C114_never_older_partial and C114_newest_partial prove it for users that differ in the last four bytes of their keys and a cache that does not refuse the second of two writes. C114_not_before_a_week: a stored profile is not refreshed within seven days. Refuted otherwise: C114_other_users_profile, C114_refused_write_goes_back, C114_stale. C114_short_name and C114_short_name_panics: display names."
  },
  {
   "property": "C115",
   "status": "partial",
   "theorems": [
    "GoNostr.Sdk.C115_virtual_iff",
    "GoNostr.Sdk.C115_recorded_partial",
    "GoNostr.Sdk.C115_attempts",
    "GoNostr.Sdk.C115_both",
    "GoNostr.Sdk.C115_relay_list_unchecked",
    "GoNostr.Sdk.C115_hint_for_nobody",
    "GoNostr.Sdk.C115_virtual_recorded",
    "GoNostr.Sdk.C115_panics"
   ],
   "note": "C115_recorded_partial characterises exactly what is recorded, C115_virtual_iff the urls that do not count, C115_attempts and C115_both the other two trackers. Refuted: C115_relay_list_unchecked, C115_hint_for_nobody, C115_virtual_recorded, C115_panics."
  },
  {
   "property": "C116",
   "status": "partial",
   "theorems": [
    "GoNostr.Url.C116_idempotent_partial",
    "GoNostr.Url.C116_same_relay_partial",
    "GoNostr.Url.C116_scheme",
    "GoNostr.Url.C116_localhost_in_capitals",
    "GoNostr.Url.C116_scheme_in_capitals",
    "GoNostr.Url.C116_long_scheme"
   ],
   "note": "C116_idempotent_partial (for texts the parser reads back), C116_same_relay_partial (with a scheme of at most five letters) and C116_scheme are proved for any url parser. Refuted: C116_localhost_in_capitals, C116_scheme_in_capitals, C116_long_scheme."
  },
  {
   "property": "C117",
   "status": "proved",
   "theorems": [
    "GoNostr.Nip05.C117_grammar",
    "GoNostr.Nip05.C117_url",
    "GoNostr.Nip05.C117_normalize",
    "GoNostr.Nip05.C117_lookup",
    "GoNostr.Nip05.C117_plus"
   ],
   "note": "C117_grammar, C117_url, C117_normalize, C117_lookup. C117_plus notes that names with a plus sign reach the server unescaped."
  },
  {
   "property": "C118",
   "status": "partial",
   "theorems": [
    "GoNostr.Nip86.C118_decodes_partial",
    "GoNostr.Nip86.C118_panics_iff_partial",
    "GoNostr.Nip86.C118_admin_crashes",
    "GoNostr.Nip86.C118_odd_name_erases",
    "GoNostr.Nip86.C118_others_usable"
   ],
   "note": "C118_decodes_partial is exact (iff) for what is decoded, C118_panics_iff_partial for what crashes, C118_others_usable shows the other calls can be asked for. Refuted: C118_admin_crashes (granting or revoking rights always crashes), C118_odd_name_erases."
  },
  {
   "property": "C119",
   "status": "partial",
   "theorems": [
    "GoNostr.Nip70.C119_is_protected",
    "GoNostr.Nip70.C119_other_kinds",
    "GoNostr.Nip70.C119_own_layout_partial",
    "GoNostr.Nip70.C119_overlooked"
   ],
   "note": "C119_is_protected and C119_other_kinds are exact; C119_own_layout_partial is exact (iff) for reposts of events as this package writes them. Refuted: C119_overlooked (two closing brackets in an earlier tag value, other layouts)."
  },
  {
   "property": "C120",
   "status": "partial",
   "theorems": [
    "GoNostr.Dm.C120_both_read",
    "GoNostr.Dm.C120_prepared_iff_partial",
    "GoNostr.Dm.C120_long_message",
    "GoNostr.Dm.C120_delivers",
    "GoNostr.Dm.C120_crash",
    "GoNostr.Dm.C120_crash_iff",
    "GoNostr.Dm.C120_asked_for_partial",
    "GoNostr.Dm.C120_since",
    "GoNostr.Dm.C120_dm_relays",
    "GoNostr.Dm.C120_publish",
    "GoNostr.Dm.C120_never_authenticates"
   ],
   "note": "C120_both_read: what is prepared is read by both sides, over the real codec, keyer and nip44 with key agreement, hash and signatures as parameters. C120_delivers: only authentic messages, in order. C120_publish: exact result of publishing. C120_prepared_iff_partial: exactly the rumors of at most 40960 bytes of JSON can be sent. C120_asked_for_partial, C120_dm_relays. Refuted: C120_long_message, C120_since (messages missed), C120_crash (with C120_crash_iff), C120_never_authenticates."
  },
  {
   "property": "C121",
   "status": "partial",
   "theorems": [
    "GoNostr.HintStores.C121_disk_newest",
    "GoNostr.HintStores.C121_disk_topn",
    "GoNostr.HintStores.C121_disk_detailed",
    "GoNostr.HintStores.C121_same_as_memory",
    "GoNostr.HintStores.C121_disk_panics",
    "GoNostr.HintStores.C121_disk_refused",
    "GoNostr.HintStores.C121_time_zero_differs",
    "GoNostr.HintStores.C121_short_key",
    "GoNostr.HintStores.C121_conflict_drops",
    "GoNostr.HintStores.C121_concurrent_monotone",
    "GoNostr.HintStores.C121_sql_last",
    "GoNostr.HintStores.C121_sql_forgets_newer",
    "GoNostr.HintStores.C121_sql_newest_partial"
   ],
   "note": "Proved for Badger and LMDB on all histories within their key limits, with agreement with memory for positive times; refuted for SQL (last save wins), proved there for saves in time order. Lost concurrent saves with Badger shown. SQL ranking, migrations and the float score not modelled."
  },
  {
   "property": "C122",
   "status": "proved",
   "theorems": [
    "GoNostr.Sdk.C122_badger_is_map",
    "GoNostr.Sdk.C122_lmdb_is_strict_map",
    "GoNostr.Sdk.C122_strict_contents",
    "GoNostr.Sdk.C122_interchangeable",
    "GoNostr.Sdk.C122_differences",
    "GoNostr.Sdk.C122_refused",
    "GoNostr.Sdk.C122_update_atomic",
    "GoNostr.Sdk.C122_overlapping_update_fails"
   ],
   "note": "Within the keys and values the libraries accept (stated in Proper); differences outside shown. Disk errors, Close on LMDB and crash recovery not modelled."
  },
  {
   "property": "C123",
   "status": "partial",
   "theorems": [
    "GoNostr.Conn.C123_written_once",
    "GoNostr.Conn.C123_in_order",
    "GoNostr.Conn.C123_one_answer",
    "GoNostr.Conn.C123_close_once",
    "GoNostr.Conn.C123_subscriptions_end",
    "GoNostr.Conn.C123_late_subscribe_leaks",
    "GoNostr.Conn.C123_nothing_after_teardown",
    "GoNostr.Conn.C123_three_failed_pings",
    "GoNostr.Conn.C123_all_ends_partial",
    "GoNostr.Conn.C123_unread_answer_stalls",
    "GoNostr.Conn.C123_stall_reached",
    "GoNostr.Conn.C123_close_can_crash",
    "GoNostr.Conn.C123_close_safe_partial",
    "GoNostr.Conn.C123_unconnected_write_waits"
   ],
   "note": "Ordering, truthful answers, single close, ping rule and the ending of subscriptions proved on all schedules; clean ending proved when callers receive their answers and Close does not crash; the stall and the crash are proved to happen. The body of the reader loop is modelled in C151; reconnection and the websocket library are not modelled."
  },
  {
   "property": "C124",
   "status": "partial",
   "theorems": [
    "GoNostr.Nip60.C124_pay_partial",
    "GoNostr.Nip60.C124_pay_error_keeps_tokens",
    "GoNostr.Nip60.C124_change_lost",
    "GoNostr.Nip60.C124_exact_payment_keeps_tokens",
    "GoNostr.Nip60.C124_paid_and_error",
    "GoNostr.Nip60.C124_gives_up_with_enough",
    "GoNostr.Nip60.C124_receive_where",
    "GoNostr.Nip60.C124_receive_partial",
    "GoNostr.Nip60.C124_destination_ignored",
    "GoNostr.Nip60.C124_swap_with_fee_never_works",
    "GoNostr.Nip60.C124_moving_costs",
    "GoNostr.Nip60.C124_own_mint_loses",
    "GoNostr.Nip60.C124_receive_error_keeps_tokens",
    "GoNostr.Nip60.C124_send_external"
   ],
   "note": "C124_pay_partial, C124_receive_partial and C124_send_external: the exact effect of success. Refuted: change lost to Lightning fees, spent tokens kept when there is no change, error after payment, giving up with enough money, destinations ignored, moving money with a fee never works. Mints, blind signatures and quotes are parameters."
  },
  {
   "property": "C125",
   "status": "partial",
   "theorems": [
    "GoNostr.Nip60.C125_amount",
    "GoNostr.Nip60.C125_no_amount",
    "GoNostr.Nip60.C125_only_mainnet",
    "GoNostr.Nip60.C125_unknown_unit",
    "GoNostr.Nip60.C125_wraps"
   ],
   "note": "Exact for invoices of the main network with an amount and a unit; an unknown unit is read as whole bitcoins and big numbers wrap, both shown."
  },
  {
   "property": "C126",
   "status": "partial",
   "theorems": [
    "GoNostr.Json.Sonic.C126_crash_needs",
    "GoNostr.Json.Sonic.C126_crash",
    "GoNostr.Json.Sonic.C126_event_agrees",
    "GoNostr.Json.Sonic.C126_null_refused",
    "GoNostr.Json.Sonic.C126_filter_agrees",
    "GoNostr.Json.Sonic.C126_messages",
    "GoNostr.Json.Sonic.C126_nil_pointer",
    "GoNostr.Json.Sonic.C126_empty_id",
    "GoNostr.Json.Sonic.C126_count_members",
    "GoNostr.Json.Sonic.C126_refused_but_there",
    "GoNostr.Json.Sonic.C126_no_array",
    "GoNostr.Json.Sonic.C126_reads"
   ],
   "note": "C126_reads is exact for every message that begins with a label; C126_messages: all messages of the protocol; C126_event_agrees and C126_filter_agrees: the same as the default parser; C126_crash_needs bounds the crashes on all values. Refuted: C126_crash, C126_nil_pointer (exact), C126_refused_but_there, C126_empty_id, C126_count_members, C126_no_array. Sonic's tokenizer is trusted; texts that are not JSON are not modelled."
  },
  {
   "property": "C127",
   "status": "partial",
   "theorems": [
    "GoNostr.Json.SonicMemory.C127_read_now",
    "GoNostr.Json.SonicMemory.C127_usable",
    "GoNostr.Json.SonicMemory.C127_others_untouched",
    "GoNostr.Json.SonicMemory.C127_next_message",
    "GoNostr.Json.SonicMemory.C127_same_number",
    "GoNostr.Json.SonicMemory.C127_new_parser"
   ],
   "note": "C127_read_now, C127_usable and C127_others_untouched for all messages and growth policies. Refuted for all pairs of messages: C127_next_message, C127_same_number. Numbers and filters are kept in arrays of the same kind that are not modelled."
  },
  {
   "property": "C128",
   "status": "partial",
   "theorems": [
    "GoNostr.Query.C128_sound",
    "GoNostr.Query.C128_all_stored",
    "GoNostr.Query.C128_why",
    "GoNostr.Query.C128_returns",
    "GoNostr.Query.C128_own_terminates",
    "GoNostr.Query.C128_order_not_kept",
    "GoNostr.Query.C128_excluded_event_returned",
    "GoNostr.Query.C128_refusal_is_no_error"
   ],
   "note": "Proved on every schedule: soundness, completeness when nothing goes wrong, the reasons for returning, and that it returns. False and refuted by runs: the order of the relay is not kept, events after the EOSE are returned although the filter's times exclude them, and a refusal, the deadline or a lost connection is no error."
  },
  {
   "property": "C129",
   "status": "partial",
   "theorems": [
    "GoNostr.RelayCount.C129_answer",
    "GoNostr.RelayCount.C129_no_crash",
    "GoNostr.RelayCount.C129_returns",
    "GoNostr.RelayCount.C129_reader_stuck",
    "GoNostr.RelayCount.C129_stuck_forever",
    "GoNostr.RelayCount.C129_not_stuck_partial",
    "GoNostr.RelayCount.C129_closed_ignored"
   ],
   "note": "Proved on every schedule: the number is one the relay gave, no crash, it returns by the deadline, and the reader cannot get stuck if the relay answers once and in time. False: a second or a late answer blocks the reader of the connection for good (C129_reader_stuck, C129_stuck_forever), and CLOSED is ignored."
  },
  {
   "property": "C130",
   "status": "partial",
   "theorems": [
    "GoNostr.Multi.C130_query",
    "GoNostr.Multi.C130_query_exists",
    "GoNostr.Multi.C130_limit_and_duplicates",
    "GoNostr.Multi.C130_publish",
    "GoNostr.Multi.C130_stream_error",
    "GoNostr.Multi.C130_stream",
    "GoNostr.Multi.C130_stream_never_ends",
    "GoNostr.Multi.C130_abandoned"
   ],
   "note": "Proved: contents, order and errors of queries, publishing, and that streams lose and invent nothing on every schedule. False: limit and duplicates, the stream never ends (proved for every schedule), abandoned streams leave goroutines behind."
  },
  {
   "property": "C131",
   "status": "partial",
   "theorems": [
    "GoNostr.Nip61.C131_accepts_iff",
    "GoNostr.Nip61.C131_blind_signature",
    "GoNostr.Nip61.C131_honest_accepted",
    "GoNostr.Nip61.C131_no_crash_partial",
    "GoNostr.Nip61.C131_crash",
    "GoNostr.Nip61.C131_worth",
    "GoNostr.Nip61.C131_special_soundness",
    "GoNostr.Nip61.C131_unblinded"
   ],
   "note": "Proved for every group: what is accepted and for how much, honest proofs are accepted, special soundness, unblinding. The hash is a parameter, so unforgeability itself is not stated. False: crashes (C131_crash), repeated and missing proofs (C131_worth); C131_no_crash_partial says when it does not crash."
  },
  {
   "property": "C132",
   "status": "partial",
   "theorems": [
    "GoNostr.Live.C132_live_read",
    "GoNostr.Live.C132_host",
    "GoNostr.Live.C132_no_host",
    "GoNostr.Live.C132_live_round_trip_partial",
    "GoNostr.Live.C132_times_never_read",
    "GoNostr.Live.C132_live_lost",
    "GoNostr.Live.C132_imeta_read",
    "GoNostr.Live.C132_imeta_distrust",
    "GoNostr.Live.C132_imeta_round_trip",
    "GoNostr.Live.C132_imeta_get",
    "GoNostr.Live.C132_imeta_odd"
   ],
   "note": "Proved for all tags: what is read, the host, what survives the round trip, all-or-nothing reading of metadata and look-up. False: times are never read (C132_times_never_read), the round trip (C132_live_lost), single items and negative sizes (C132_imeta_odd)."
  },
  {
   "property": "C133",
   "status": "partial",
   "theorems": [
    "GoNostr.LiveFeed.C133_closes_once",
    "GoNostr.LiveFeed.C133_can_end",
    "GoNostr.LiveFeed.C133_no_users_never_ends",
    "GoNostr.LiveFeed.C133_abandoned"
   ],
   "note": "Proved on every schedule: closed once, at the right moment, nothing sent afterwards, and the end can always be reached. False: no users (C133_no_users_never_ends), abandoned feeds (C133_abandoned). That subscriptions themselves end is C35."
  },
  {
   "property": "C134",
   "status": "partial",
   "theorems": [
    "GoNostr.LiveFeed.C134_sound",
    "GoNostr.LiveFeed.C134_complete_partial",
    "GoNostr.LiveFeed.C134_newer_accepted",
    "GoNostr.LiveFeed.C134_record_of_tenth",
    "GoNostr.LiveFeed.C134_records",
    "GoNostr.LiveFeed.C134_moved_since",
    "GoNostr.LiveFeed.C134_other_relay_breaks"
   ],
   "note": "Proved on every schedule: soundness, no duplicates, completeness on a first run without disconnections, which events are accepted on later runs, and what the records are. False and proved final: C134_moved_since, C134_other_relay_breaks. Forgetting of seen ids after a while is not modelled."
  },
  {
   "property": "C135",
   "status": "proved",
   "theorems": [
    "GoNostr.WotLoad.C135_complete",
    "GoNostr.WotLoad.C135_ends",
    "GoNostr.WotLoad.C135_limit",
    "GoNostr.WotLoad.C135_filter",
    "GoNostr.WotLoad.C135_wot",
    "GoNostr.WotLoad.C135_crash",
    "GoNostr.WotLoad.C135_stranger"
   ],
   "note": "What FetchFollowList returns and the xor filter library are parameters; the library is assumed to answer yes for what it was made of."
  },
  {
   "property": "C136",
   "status": "partial",
   "theorems": [
    "GoNostr.Nip60.Settings.C136_round_trip",
    "GoNostr.Nip60.Settings.C136_add",
    "GoNostr.Nip60.Settings.C136_add_half_done",
    "GoNostr.Nip60.Settings.C136_add_collision",
    "GoNostr.Nip60.Settings.C136_remove_partial",
    "GoNostr.Nip60.Settings.C136_add_nodup",
    "GoNostr.Nip60.Settings.C136_not_removed",
    "GoNostr.Nip60.Settings.C136_twice",
    "GoNostr.Nip60.Settings.C136_key",
    "GoNostr.Nip60.Settings.C136_read_only"
   ],
   "note": "C136_remove_partial assumes that the wallet has no mint twice; C136_add_half_done, C136_not_removed and C136_twice show where the full statement is false. NormalizeHTTPURL, mint answers, the keyer and the JSON of hidden tags are parameters."
  },
  {
   "property": "C137",
   "status": "partial",
   "theorems": [
    "GoNostr.Mentions.C137_appends",
    "GoNostr.Mentions.C137_mentions_tagged",
    "GoNostr.Mentions.C137_not_idempotent",
    "GoNostr.Mentions.C137_tagged_twice"
   ],
   "note": "The last part is false: C137_not_idempotent, C137_tagged_twice. The content is parsed by the model of C90, where url.Parse is a parameter; if parsing panics, so does this."
  },
  {
   "property": "C138",
   "status": "proved",
   "theorems": [
    "GoNostr.Mentions.C138_mentions",
    "GoNostr.Mentions.C138_pointer",
    "GoNostr.Mentions.C138_empty_relay",
    "GoNostr.Mentions.RefPointers.C138_codes"
   ],
   "note": "The regular expression is written out by hand; bech32 decoding is the model of C51 to C54; public key validity is a parameter."
  },
  {
   "property": "C139",
   "status": "partial",
   "theorems": [
    "GoNostr.GiveUp.C139_all_gone_ends",
    "GoNostr.GiveUp.C139_not_before",
    "GoNostr.GiveUp.C139_one_waits_for_all",
    "GoNostr.GiveUp.C139_lost_update",
    "GoNostr.GiveUp.C139_plain_partial"
   ],
   "note": "True for the loader of replaceable events as a whole batch (C139_all_gone_ends, C139_not_before); C139_one_waits_for_all and C139_lost_update show the two failures, C139_plain_partial what holds of the other loader without simultaneous updates. Relays are abstract."
  },
  {
   "property": "C140",
   "status": "partial",
   "theorems": [
    "GoNostr.SdkKeys.C140_relays",
    "GoNostr.SdkKeys.C140_sources",
    "GoNostr.SdkKeys.C140_some",
    "GoNostr.SdkKeys.C140_three_partial",
    "GoNostr.SdkKeys.C140_fewer"
   ],
   "note": "C140_three_partial needs the configured relays to differ from the user's own; C140_fewer is the failure otherwise. Hints and outbox relays are parameters (modelled in C24, C79 and others)."
  },
  {
   "property": "C141",
   "status": "partial",
   "theorems": [
    "GoNostr.SdkKeys.C141_last_fetch",
    "GoNostr.SdkKeys.C141_apart",
    "GoNostr.SdkKeys.C141_stream_partial",
    "GoNostr.SdkKeys.C141_shared",
    "GoNostr.SdkKeys.C141_invalid",
    "GoNostr.SdkKeys.C141_times"
   ],
   "note": "C141_last_fetch, C141_apart and C141_times for everything valid; feeds share a record if 16 digits agree (C141_stream_partial, C141_shared); C141_invalid for other strings."
  },
  {
   "property": "C142",
   "status": "proved",
   "theorems": [
    "GoNostr.KeyMaking.C142_valid",
    "GoNostr.KeyMaking.C142_even",
    "GoNostr.KeyMaking.C142_no_randomness"
   ],
   "note": "The 40 bytes from crypto/rand are a parameter. C142_no_randomness is what happens when reading them fails."
  },
  {
   "property": "C143",
   "status": "partial",
   "theorems": [
    "GoNostr.KeyMaking.C143_nsec",
    "GoNostr.KeyMaking.C143_ncryptsec",
    "GoNostr.KeyMaking.C143_hex",
    "GoNostr.KeyMaking.C143_bunker",
    "GoNostr.KeyMaking.C143_name_partial",
    "GoNostr.KeyMaking.C143_only",
    "GoNostr.KeyMaking.C143_odd",
    "GoNostr.KeyMaking.C143_panics"
   ],
   "note": "C143_nsec, C143_hex, C143_ncryptsec, C143_bunker, C143_name_partial for each format and C143_only that nothing else is accepted; C143_odd and C143_panics are the exceptions. url.Parse is a parameter of which only is asked that a text without colon has no scheme; remote answers are parameters."
  },
  {
   "property": "C144",
   "status": "proved",
   "theorems": [
    "GoNostr.Media.C144_check",
    "GoNostr.Media.C144_delete",
    "GoNostr.Media.C144_list",
    "GoNostr.Media.C144_download",
    "GoNostr.Media.C144_file",
    "GoNostr.Media.C144_upload",
    "GoNostr.Media.C144_one_thing",
    "GoNostr.Media.C144_refused",
    "GoNostr.Media.C144_server",
    "GoNostr.Media.C144_not_checked",
    "GoNostr.Media.C144_changed",
    "GoNostr.Media.C144_file_lost",
    "GoNostr.Media.C144_delete_any"
   ],
   "note": "Requests, tokens as a server checks them (with a signer that holds a key), answers and files for all functions of the Blossom client; the false parts (bytes, descriptors and uploads not checked against the hash, files lost, refusing signers, deletion of any path) are proved by witnesses."
  },
  {
   "property": "C145",
   "status": "proved",
   "theorems": [
    "GoNostr.Media.C145_request",
    "GoNostr.Media.C145_token",
    "GoNostr.Media.C145_unsigned"
   ],
   "note": "The NIP-96 request, its token and the answer; unsigned token proved by a witness. The multipart encoding is a list of parts."
  },
  {
   "property": "C146",
   "status": "partial",
   "theorems": [
    "GoNostr.Libsecp.C146_agree",
    "GoNostr.Libsecp.C146_accepts",
    "GoNostr.Libsecp.C146_crash_iff",
    "GoNostr.Libsecp.C146_sign",
    "GoNostr.Libsecp.C146_short_key",
    "GoNostr.Libsecp.C146_crash",
    "GoNostr.Libsecp.C146_sign_short"
   ],
   "note": "Proved for well-formed sizes (C146_agree), for everything the default build accepts (C146_accepts) and for signing with 32 byte keys (C146_sign); crashes characterised exactly (C146_crash_iff). False otherwise: C146_short_key, C146_crash, C146_sign_short. The C library is a parameter with the contract Same."
  },
  {
   "property": "C147",
   "status": "partial",
   "theorems": [
    "GoNostr.Names.C147_added",
    "GoNostr.Names.C147_twice",
    "GoNostr.Names.C147_fetch",
    "GoNostr.Names.C147_where",
    "GoNostr.Names.C147_short",
    "GoNostr.Names.C147_crash_iff",
    "GoNostr.Names.C147_odd_scheme"
   ],
   "note": "Proved: C147_added, C147_fetch, C147_where. False parts with witnesses: C147_twice, C147_short, C147_crash_iff (exact), C147_odd_scheme. The http client and the JSON decoder are parameters."
  },
  {
   "property": "C148",
   "status": "partial",
   "theorems": [
    "GoNostr.Names.C148_includes",
    "GoNostr.Names.C148_kinds",
    "GoNostr.Names.C148_unordered",
    "GoNostr.Names.C148_parse",
    "GoNostr.Names.C148_round_trip_partial",
    "GoNostr.Names.C148_valid",
    "GoNostr.Names.C148_lost"
   ],
   "note": "Proved for every ordered list (C148_includes) and the two lists of the package (C148_kinds); addresses: C148_parse, C148_round_trip_partial. False parts: C148_unordered, C148_lost."
  },
  {
   "property": "C149",
   "status": "partial",
   "theorems": [
    "GoNostr.Names.C149_characters",
    "GoNostr.Names.C149_ascii",
    "GoNostr.Names.C149_idempotent_partial",
    "GoNostr.Names.C149_not_idempotent"
   ],
   "note": "Proved: C149_characters for all texts, C149_ascii and C149_idempotent_partial for ASCII. False beyond: C149_not_idempotent. Unicode tables are parameters."
  },
  {
   "property": "C150",
   "status": "partial",
   "theorems": [
    "GoNostr.Names.C150_last",
    "GoNostr.Names.C150_mixed"
   ],
   "note": "Proved: C150_last. False for the relay and the kind of the tag: C150_mixed. The diff in the content is read by a library and not modelled."
  },
  {
   "property": "C151",
   "status": "partial",
   "theorems": [
    "GoNostr.Reader.C151_justified",
    "GoNostr.Reader.C151_asked",
    "GoNostr.Reader.C151_crash_iff",
    "GoNostr.Reader.C151_event_partial",
    "GoNostr.Reader.C151_checked_partial",
    "GoNostr.Reader.C151_others",
    "GoNostr.Reader.C151_escaped_dropped",
    "GoNostr.Reader.C151_unnamed_delivered"
   ],
   "note": "Proved for all texts: every action is justified by the text, the exact condition for a crash, and that other subscriptions hear nothing; delivery of events in any layout without duplicate check, and of messages in the library's own layout with one. Refuted: escaped ids are dropped, an event without a subscription name is delivered. json.Valid and the count in COUNT answers are parameters; the receivers are modelled in C24-C30 and C129."
  },
  {
   "property": "C152",
   "status": "partial",
   "theorems": [
    "GoNostr.Batched.C152_at_most_once",
    "GoNostr.Batched.C152_only_received",
    "GoNostr.Batched.C152_closed_once",
    "GoNostr.Batched.C152_nothing_after_close",
    "GoNostr.Batched.C152_complete_partial",
    "GoNostr.Batched.C152_cancel_closes",
    "GoNostr.Batched.C152_closes_when_all_done",
    "GoNostr.Batched.C152_empty_closes",
    "GoNostr.Batched.C152_other_filter_suppresses"
   ],
   "note": "All safety and liveness parts are proved on all schedules; completeness needs that all copies of an event are valid for the relay they came from and that no relay refuses (C152_complete_partial). Refuted without: C152_other_filter_suppresses. Relays, matching and signatures are abstract; the closer of each inner channel is merged with its forwarder."
  },
  {
   "property": "C153",
   "status": "partial",
   "theorems": [
    "GoNostr.Batched.C153_answer",
    "GoNostr.Batched.C153_nil_partial",
    "GoNostr.Batched.C153_forged_copy_hides"
   ],
   "note": "Proved on all schedules; completeness of nil needs that no forged copy was sent (C153_nil_partial, refuted without: C153_forged_copy_hides)."
  },
  {
   "property": "C154",
   "status": "partial",
   "theorems": [
    "GoNostr.Sdk.C154_search_partial",
    "GoNostr.Sdk.C154_any_event",
    "GoNostr.Sdk.C154_repeated"
   ],
   "note": "What a search gives is proved for all answers; that it gives users, each once, is refuted (C154_any_event, C154_repeated)."
  },
  {
   "property": "C155",
   "status": "partial",
   "theorems": [
    "GoNostr.Sdk.C155_confirmed",
    "GoNostr.Sdk.C155_weekly",
    "GoNostr.Sdk.C155_changed_name"
   ],
   "note": "Proved for all sequences of calls on one unchanged profile; refuted for a profile whose name is changed (C155_changed_name). AddDate, the clock and the server are parameters."
  },
  {
   "property": "C156",
   "status": "partial",
   "theorems": [
    "GoNostr.Sdk.C156_event_input",
    "GoNostr.Sdk.C156_profile_input",
    "GoNostr.Sdk.C156_virtual_remembered"
   ],
   "note": "Proved for all texts (the texts that crash are those of C54). Refuted: virtual relays not in normal form are remembered (C156_virtual_remembered)."
  },
  {
   "property": "C157",
   "status": "proved",
   "theorems": [
    "GoNostr.Sdk.C157_kinds"
   ],
   "note": "For all lists and sets; the fetching itself is C75, C76 and C93."
  },
  {
   "property": "C158",
   "status": "partial",
   "theorems": [
    "GoNostr.Nip60.C158_tried",
    "GoNostr.Nip60.C158_published",
    "GoNostr.Nip60.C158_not_accepted",
    "GoNostr.Nip60.C158_error_partial",
    "GoNostr.Nip60.C158_from_own_tokens",
    "GoNostr.Nip60.C158_never_locked",
    "GoNostr.Nip60.C158_signing_loses",
    "GoNostr.Nip60.C158_paid_twice"
   ],
   "note": "Proved: what is published, when nothing is, which mints are tried, that own tokens come first. C158_error_partial: errors leave the wallet alone if signing works and no Lightning payment is begun. Refuted otherwise: C158_signing_loses, C158_paid_twice, C158_never_locked. Mints, signer and relays are parameters."
  },
  {
   "property": "C159",
   "status": "partial",
   "theorems": [
    "GoNostr.Names.C159_state_partial",
    "GoNostr.Names.C159_any_author",
    "GoNostr.Names.C159_patches",
    "GoNostr.Names.C159_repository_partial",
    "GoNostr.Names.C159_other_repository"
   ],
   "note": "Proved for all stores that keep their promise. Refuted: the author of a state is not looked at (C159_any_author), and patches that name several repositories (C159_other_repository)."
  },
  {
   "property": "C160",
   "status": "proved",
   "theorems": [
    "GoNostr.Names.C160_tags",
    "GoNostr.Names.C160_options",
    "GoNostr.Names.C160_unnamed"
   ],
   "note": "For all tags and settings; C160_unnamed states what happens with TLS settings alone."
  },
  {
   "property": "C161",
   "status": "partial",
   "theorems": [
    "GoNostr.Neg.C161_ids_partial",
    "GoNostr.Neg.C161_one_round_partial",
    "GoNostr.NegFetch.C161_closed_is_complete",
    "GoNostr.NegFetch.C161_refusal_hangs",
    "GoNostr.NegFetch.C161_ends_partial",
    "GoNostr.NegFetch.C161_lost_hangs",
    "GoNostr.NegFetch.C161_consumer_gone"
   ],
   "note": "Proved: with a relay that keeps to the protocol and any limit, exactly its ids, each once, within n + 1 round trips (one if it has no limit); a closed channel is complete; an orderly conversation ends with the channel closed under every schedule. False, proved as such: refusals, failures, loss of the connection and cancellation leave the channel open for ever; a consumer that stops leaves a goroutine behind."
  },
  {
   "property": "C162",
   "status": "proved",
   "theorems": [
    "GoNostr.Curve.C162_same_secret",
    "GoNostr.Curve.C162_same_conversation_key",
    "GoNostr.Curve.C162_recipient_exists",
    "GoNostr.Curve.C162_keyers"
   ],
   "note": "For all keys; the arithmetic of btcec is modelled as the group of secp256k1 (Mathlib), HKDF and the primitives of NIP-44 are parameters. The primality of field size and order and the order of the generator are proved, not assumed."
  },
  {
   "property": "C163",
   "status": "partial",
   "theorems": [
    "GoNostr.Curve.C163_secret_iff",
    "GoNostr.Curve.C163_refuses_partial",
    "GoNostr.Curve.C163_zero_in_disguise",
    "GoNostr.Curve.C163_nip04_zero",
    "GoNostr.Curve.C163_longer_keys"
   ],
   "note": "Proved: exactly when a secret is computed; exactly which keys of 64 lower-case digits are refused. Refuted for other spellings (C163_zero_in_disguise), for NIP-04 (C163_nip04_zero) and for longer keys (C163_longer_keys)."
  },
  {
   "property": "C164",
   "status": "proved",
   "theorems": [
    "GoNostr.Curve.C164_valid_iff_owned",
    "GoNostr.Curve.C164_generated_valid",
    "GoNostr.Curve.C164_same_public_key",
    "GoNostr.Curve.C164_zero_key"
   ],
   "note": "For all strings of 64 characters (65 characters: C19) and all keys; C164_zero_key states what happens with zero."
  },
  {
   "property": "C165",
   "status": "proved",
   "theorems": [
    "GoNostr.Curve.C165_verify_iff",
    "GoNostr.Curve.C165_library_contract",
    "GoNostr.Curve.C165_always_signs",
    "GoNostr.Curve.C165_sign_then_check",
    "GoNostr.Curve.C165_second_half_unique",
    "GoNostr.Curve.C165_one_hash",
    "GoNostr.Curve.C165_signature_binds_fields"
   ],
   "note": "The contract of the signature library assumed by C04 is proved for BIP-340 over secp256k1. Nonce and tagged hash are parameters; btcec is modelled from its documentation."
  },
  {
   "property": "C166",
   "status": "proved",
   "theorems": [
    "GoNostr.Curve.C166_message_arrives",
    "GoNostr.Curve.C166_too_long"
   ],
   "note": "Nothing is assumed about keys, agreement or signatures any more; the primitives of NIP-44, HKDF, the hash and the nonces (not zero) are parameters. The sender uses a plain keyer."
  },
  {
   "property": "C167",
   "status": "partial",
   "theorems": [
    "GoNostr.Curve.C167_point",
    "GoNostr.Curve.C167_honest_mint",
    "GoNostr.Curve.C167_taken_is_passed_on",
    "GoNostr.Curve.C167_forgery",
    "GoNostr.Curve.C167_accepted",
    "GoNostr.Curve.C167_worthless_taken",
    "GoNostr.Curve.C167_prepared",
    "GoNostr.Curve.C167_blinded"
   ],
   "note": "Proved over the real curve, with gonuts' hash-to-curve, blinding and DLEQ equations from its documentation. C167_worthless_taken refutes it for mints that give no DLEQ proofs."
  },
  {
   "property": "C168",
   "status": "partial",
   "theorems": [
    "GoNostr.Curve.Unlock.C168_unlocks",
    "GoNostr.Curve.Unlock.C168_nostr_key_lock",
    "GoNostr.Curve.Unlock.C168_output_signed",
    "GoNostr.Curve.Unlock.C168_not_for_others",
    "GoNostr.Curve.Unlock.C168_nutzaps_unlocked",
    "GoNostr.Curve.Unlock.C168_no_key"
   ],
   "note": "Proved for wallets with a private key and receipts without hash locks; C168_no_key and C168_nutzaps_unlocked refute the rest."
  },
  {
   "property": "C169",
   "status": "partial",
   "theorems": [
    "GoNostr.Curve.Remote.C169_sign",
    "GoNostr.Curve.Remote.C169_public_key",
    "GoNostr.Curve.Remote.C169_encrypt",
    "GoNostr.Curve.Remote.C169_decrypt",
    "GoNostr.Curve.Remote.C169_nip04",
    "GoNostr.Curve.Remote.C169_refused",
    "GoNostr.Curve.Remote.C169_anyone_stops_the_signer",
    "GoNostr.Curve.Remote.C169_anyone_stops_the_client"
   ],
   "note": "Proved for static signers and for requests and answers that fit into a NIP-44 message; JSON of requests and responses is a parameter with a round-trip law. C169_anyone_stops_the_signer and C169_anyone_stops_the_client refute C96 and C103 with the real decryption. Missing: the dynamic signer."
  },
  {
   "property": "C170",
   "status": "partial",
   "theorems": [
    "GoNostr.Nip60.Race.C170_received",
    "GoNostr.Nip60.Race.C170_quiet_partial",
    "GoNostr.Nip60.Race.C170_stored_partial",
    "GoNostr.Nip60.Race.C170_deletion_lost",
    "GoNostr.Nip60.Race.C170_token_lost_and_doubled",
    "GoNostr.Nip60.Race.C170_crash",
    "GoNostr.Nip60.Race.C170_without_deletions"
   ],
   "note": "For every interleaving: nothing is invented, and without deletions nothing is lost, doubled or panics. With deletions the loader refines the model of C94 when the end of stored events is handled while the receiver rests. Refuted for other interleavings, because the goroutine of the end of stored events takes no lock: C170_deletion_lost, C170_token_lost_and_doubled, C170_crash. Simplified: sequentially consistent memory, the backing array never grows."
  },
  {
   "property": "C171",
   "status": "partial",
   "theorems": [
    "GoNostr.Nip60.C171_del_empty",
    "GoNostr.Nip60.C171_devices_agree_partial",
    "GoNostr.Nip60.C171_exact_spend_diverges",
    "GoNostr.Nip60.C171_failed_change_diverges",
    "GoNostr.Nip60.C171_unsigned_deletion",
    "GoNostr.Nip60.C171_received_twice"
   ],
   "note": "C171_devices_agree_partial for every history in which calls that delete tokens save change, new events have new ids and deletions get signed; C171_exact_spend_diverges (for all exact spends), C171_failed_change_diverges, C171_unsigned_deletion, C171_del_empty and C171_received_twice are the failures. Encryption and JSON of token events are not part of this model, nor are history events."
  },
  {
   "property": "C172",
   "status": "partial",
   "theorems": [
    "GoNostr.Hints.C172_better",
    "GoNostr.Hints.C172_fits",
    "GoNostr.Hints.C172_success_cancels",
    "GoNostr.Hints.C172_only_tried",
    "GoNostr.Hints.C172_list_before_hint_partial",
    "GoNostr.Hints.C172_old_list_loses",
    "GoNostr.Hints.C172_quiet_authors_sink",
    "GoNostr.Hints.C172_topn",
    "GoNostr.Hints.C172_working_relay_avoided"
   ],
   "note": "Proved: C172_better, C172_fits, C172_success_cancels, C172_only_tried, C172_topn (composed with C73). The ranking of lists above hints holds for lists up to eight days old (C172_list_before_hint_partial) and is refuted for older ones (C172_old_list_loses); that a success makes up for the attempt is proved if the event is as recent as the attempt, and refuted otherwise (C172_quiet_authors_sink, C172_working_relay_avoided). Floating point numbers are real numbers here: rounding is not modelled."
  },
  {
   "property": "C173",
   "status": "partial",
   "theorems": [
    "GoNostr.HLL.C173_exact_small",
    "GoNostr.HLL.C173_at_least",
    "GoNostr.HLL.C173_grows_partial",
    "GoNostr.HLL.C173_falls",
    "GoNostr.HLL.C173_one_relay_zeroes",
    "GoNostr.HLL.C173_negative"
   ],
   "note": "Proved: C173_exact_small, C173_at_least. Growth holds while at least 109 registers are empty or none is (C173_grows_partial) and is refuted in between (C173_falls). C173_one_relay_zeroes and C173_negative show what one relay can do to CountMany. Floating point numbers are real numbers here: rounding is not modelled; the conversion to uint64 of numbers that do not fit is left open."
  },
  {
   "property": "C174",
   "status": "partial",
   "theorems": [
    "GoNostr.Curve.C174_words",
    "GoNostr.Curve.C174_valid_words",
    "GoNostr.Curve.C174_space_changes_seed",
    "GoNostr.Curve.C174_valid",
    "GoNostr.Curve.C174_bip32",
    "GoNostr.Curve.C174_watched"
   ],
   "note": "Proved: C174_words, C174_valid, C174_bip32, C174_watched. That valid words decide the key is refuted by C174_space_changes_seed. The libraries go-bip39 and go-bip32 are not in the repository and are modelled from their published sources; in C174_bip32 the hash has left halves below the order (the library does not check it, BIP-32 makes the exception an error)."
  },
  {
   "property": "C175",
   "status": "partial",
   "theorems": [
    "GoNostr.SqlRank.C175_better",
    "GoNostr.SqlRank.C175_close",
    "GoNostr.SqlRank.C175_topn",
    "GoNostr.SqlRank.C175_agree_partial",
    "GoNostr.SqlRank.C175_backwards",
    "GoNostr.SqlRank.C175_zero",
    "GoNostr.SqlRank.C175_detailed_partial",
    "GoNostr.SqlRank.C175_detailed_drops"
   ],
   "note": "Proved: C175_better, C175_close, C175_topn. Agreement holds for saves in the order of their times (C175_agree_partial) and is refuted otherwise by C175_backwards and C175_zero. C175_detailed_partial: what GetDetailedScores reports is right; C175_detailed_drops: it does not report everything. The database is modelled by the SQL text; its numbers are real numbers (rounding is not modelled) and its clock counts whole seconds."
  },
  {
   "property": "C176",
   "status": "partial",
   "theorems": [
    "GoNostr.Group.C176_admins",
    "GoNostr.Group.C176_refused",
    "GoNostr.Group.C176_history_partial",
    "GoNostr.Group.C176_never_removed",
    "GoNostr.Group.C176_demoted_stays",
    "GoNostr.Group.C176_new",
    "GoNostr.Group.C176_roles_page",
    "GoNostr.Group.C176_roles_date"
   ],
   "note": "Proved: C176_admins, C176_new, C176_roles_page, and C176_history_partial, which says exactly who is a member with which roles after any history. That these are those of the newest lists is refuted by C176_never_removed and C176_demoted_stays, and the date of the roles page by C176_roles_date. Not modelled: Group.String, which prints."
  },
  {
   "property": "C177",
   "status": "partial",
   "theorems": [
    "GoNostr.HttpUrl.C177_query",
    "GoNostr.HttpUrl.C177_order",
    "GoNostr.HttpUrl.C177_query_settled_partial",
    "GoNostr.HttpUrl.C177_other_parameters",
    "GoNostr.HttpUrl.C177_eaten",
    "GoNostr.HttpUrl.C177_form",
    "GoNostr.HttpUrl.C177_same",
    "GoNostr.HttpUrl.C177_settled_partial",
    "GoNostr.HttpUrl.C177_unreadable",
    "GoNostr.HttpUrl.C177_two_slashes",
    "GoNostr.HttpUrl.C177_downgrade"
   ],
   "note": "Proved: C177_form (exactly what the result is), C177_query, C177_order, C177_same (spellings that become one), and idempotence for addresses with plain parameters (C177_query_settled_partial, C177_settled_partial). Refuted in general: C177_other_parameters, C177_eaten, C177_two_slashes, C177_downgrade. Not modelled: url.Parse itself, user names, fragments and opaque addresses."
  },
  {
   "property": "C178",
   "status": "partial",
   "theorems": [
    "GoNostr.Nip60.C178_asked",
    "GoNostr.Nip60.C178_loaded_partial",
    "GoNostr.Nip60.C178_strangers",
    "GoNostr.Nip60.C178_devices_partial",
    "GoNostr.Nip60.C178_unmarked"
   ],
   "note": "Proved: what is asked for (C178_asked), what is loaded from any relays (C178_loaded_partial), that strangers change nothing (C178_strangers) and that a second device gets the same tokens (C178_devices_partial, under the conditions of C171). False: a deletion of the user without the optional k tag is never asked for, so the token is loaded all the same (C178_unmarked)."
  },
  {
   "property": "C179",
   "status": "partial",
   "theorems": [
    "GoNostr.SdkSystem.C179_configured",
    "GoNostr.SdkSystem.C179_kv_closed",
    "GoNostr.SdkSystem.C179_in_use_open_partial",
    "GoNostr.SdkSystem.C179_twice",
    "GoNostr.SdkSystem.C179_close_leaks",
    "GoNostr.SdkSystem.C179_relays_partial",
    "GoNostr.SdkSystem.C179_empty"
   ],
   "note": "Proved: the last modifier counts (C179_configured), stores are closed once each (C179_kv_closed), the store in use is open unless given twice (C179_in_use_open_partial), the configured relays are asked (C179_relays_partial). False: a store given twice is closed while in use (C179_twice), an empty list of relays panics on the first request (C179_empty), Close closes neither the event store nor the hints database (C179_close_leaks)."
  },
  {
   "property": "C180",
   "status": "partial",
   "theorems": [
    "GoNostr.EndToEnd.C180_arrives_partial",
    "GoNostr.EndToEnd.C180_not_utf8"
   ],
   "note": "False of texts that are not UTF-8 (C180_not_utf8); filters must be plain (C22), times not before 1970, duplicate check none or by id (C18)."
  },
  {
   "property": "C181",
   "status": "partial",
   "theorems": [
    "GoNostr.AuthOver.C181_question",
    "GoNostr.AuthOver.C181_answer_partial",
    "GoNostr.AuthOver.C181_signed",
    "GoNostr.AuthOver.C181_too_early",
    "GoNostr.AuthOver.C181_not_utf8"
   ],
   "note": "False of challenges that are not UTF-8 (C181_not_utf8); the answer must be dated since 1970. url.Parse and strings.ToLower are parameters."
  },
  {
   "property": "C182",
   "status": "partial",
   "theorems": [
    "GoNostr.NegStores.C182_sync_partial"
   ],
   "note": "Proved for every pair of stores, direction and interleaving under the conditions of the parts. Missing because false: one-way syncs with more than 64 ids the other way (C106_hangs), lists given back while another is grabbed (C107_lost), limits on both sides (C50_both_limits_lose)."
  },
  {
   "property": "C183",
   "status": "partial",
   "theorems": [
    "GoNostr.Nip60.C183_answer_iff",
    "GoNostr.Nip60.C183_active_keyset",
    "GoNostr.Nip60.C183_keyset_by_id_crash",
    "GoNostr.Nip60.C183_swap_crash_iff",
    "GoNostr.Nip60.C183_right_partial",
    "GoNostr.Nip60.C183_crash",
    "GoNostr.Nip60.C183_short"
   ],
   "note": "Exactly which answers crash a swap is proved (C183_swap_crash_iff), and that the answers asked for give exactly the amount. False: missing or surplus signatures crash (C183_crash), smaller amounts are believed (C183_short), an empty list of keysets crashes (C183_keyset_by_id_crash)."
  },
  {
   "property": "C184",
   "status": "partial",
   "theorems": [
    "GoNostr.SeenOn.C184_remembered_partial",
    "GoNostr.SeenOn.C184_early_copy_forgotten",
    "GoNostr.SeenOn.C184_forger_remembered"
   ],
   "note": "Proved: the relay an event came from and every relay that sends a copy afterwards are remembered; nothing else is, up to the eight-byte key. Missing, because false: copies that arrive before the first is taken are forgotten; forgers are remembered (both refuted by concrete runs)."
  },
  {
   "property": "C185",
   "status": "partial",
   "theorems": [
    "GoNostr.Nip60.Locks.C185_stuck_iff",
    "GoNostr.Nip60.Locks.C185_finishes_partial",
    "GoNostr.Nip60.Locks.C185_exclusive",
    "GoNostr.Nip60.Locks.C185_echo"
   ],
   "note": "Proved: mutual exclusion; exactly when the wallet can block for good; that everything finishes otherwise. The unrestricted claim is false: C185_echo (the echo of the change published by Send blocks the wallet) and C185_stuck_iff."
  },
  {
   "property": "C186",
   "status": "partial",
   "theorems": [
    "GoNostr.Nip60.During.C186_send_partial",
    "GoNostr.Nip60.During.C186_spent_token_stays",
    "GoNostr.Nip60.During.C186_unspent_token_lost"
   ],
   "note": "Proved: exactly which tokens are kept when other tokens are deleted during a Send. The unrestricted claim is false: C186_spent_token_stays, C186_unspent_token_lost."
  },
  {
   "property": "C187",
   "status": "partial",
   "theorems": [
    "GoNostr.Live.C187_once_partial",
    "GoNostr.Live.C187_once_before_eose",
    "GoNostr.Live.C187_first_kept_partial",
    "GoNostr.Live.C187_asked",
    "GoNostr.Live.C187_twice",
    "GoNostr.Live.C187_forged_first",
    "GoNostr.Live.C187_late_relay"
   ],
   "note": "False as stated: three concrete runs show an event handed over twice, an event suppressed by a forged copy, and a relay never asked for what the caller wanted. Proved: at most once while copies come at most a minute apart, and until the first EOSE; the first valid copy is kept; what each subscription asks for."
  },
  {
   "property": "C188",
   "status": "partial",
   "theorems": [
    "GoNostr.Curve.Remote.ZeroKey.C188_fails_iff",
    "GoNostr.Curve.Remote.ZeroKey.C188_npub",
    "GoNostr.Curve.Remote.ZeroKey.C188_signer_reads_partial",
    "GoNostr.Curve.Remote.ZeroKey.C188_anyone_reads",
    "GoNostr.Curve.Remote.ZeroKey.C188_anyone_answers"
   ],
   "note": "False as stated: with a target that is not a public key everything is encrypted with a key of zeros. Proved: exactly when the agreement fails, and that between valid keys the signer reads what was sent. Secrecy against others is an assumption about the primitives."
  }
 ]
}