# Axioms each theorem of the manifest depends on

Output of `#print axioms`, collected.

## C01

- `GoNostr.C01_serialize_injective`: propext, Classical.choice, Quot.sound
- `GoNostr.C01_id_binds_fields`: propext, Classical.choice, Quot.sound

## C02

- `GoNostr.C02_escape_decodes`: propext
- `GoNostr.C02_no_raw_control`: propext, Quot.sound

## C03

- `GoNostr.C03_checkID_iff`: propext, Quot.sound
- `GoNostr.C03_getID_format`: propext, Quot.sound

## C04

- `GoNostr.C04_sign_verifies`: propext, Quot.sound
- `GoNostr.C04_sign_fails_cleanly`: propext, Quot.sound

## C05

- `GoNostr.C05_checkSignature_iff`: propext, Quot.sound
- `GoNostr.C05_signature_binds_fields`: propext, Classical.choice, Quot.sound
- `GoNostr.C05_id_not_covered`: propext, Quot.sound
- `GoNostr.C05_valid_signature_wrong_id`: propext, Quot.sound

## C06

- `GoNostr.C06_matches_iff`: propext, Quot.sound
- `GoNostr.C06_matchesIgnoringTimestamps_iff`: propext, Quot.sound
- `GoNostr.C06_nil_event`: propext
- `GoNostr.C06_empty_list_matches_nothing`: propext, Quot.sound
- `GoNostr.C06_map_order_irrelevant`: propext, Quot.sound

## C07

- `GoNostr.C07_match_iff_exists`: propext, Quot.sound
- `GoNostr.C07_matchIgnoring_iff_exists`: propext, Quot.sound
- `GoNostr.C07_set_semantics`: propext, Quot.sound
- `GoNostr.C07_empty_and_nil`: propext
- `GoNostr.C07_ignoring_is_weaker`: propext, Quot.sound

## C08

- `GoNostr.C08_reflexive`: propext, Quot.sound
- `GoNostr.C08_transitive`: propext, Quot.sound
- `GoNostr.C08_equal_iff_fields`: propext, Quot.sound
- `GoNostr.C08_limit_ignored`: none
- `GoNostr.C08_not_symmetric`: none
- `GoNostr.C08_equal_filters_match_differently`: propext
- `GoNostr.C08_symmetric_partial`: propext, Quot.sound
- `GoNostr.C08_equal_implies_same_matches_partial`: propext, Quot.sound

## C09

- `GoNostr.C09_clone_equal`: propext, Quot.sound
- `GoNostr.C09_clone_independent`: propext, Quot.sound
- `GoNostr.C09_clone_disjoint`: propext, Quot.sound
- `GoNostr.C09_clone_filterEqual`: propext, Quot.sound

## C10

- `GoNostr.C10_limit_bounds_results_partial`: propext, Classical.choice, Quot.sound
- `GoNostr.C10_limit_exceeded_with_two_d_tags`: propext

## C11

- `GoNostr.C11_predicates`: propext, Classical.choice, Quot.sound
- `GoNostr.C11_partition`: propext, Classical.choice, Quot.sound

## C12

- `GoNostr.C12_find`: propext, Quot.sound
- `GoNostr.C12_findWithValue`: propext, Quot.sound
- `GoNostr.C12_findLast`: propext, Quot.sound
- `GoNostr.C12_findLastWithValue`: propext, Quot.sound
- `GoNostr.C12_findAll`: propext, Classical.choice, Quot.sound
- `GoNostr.C12_getD`: propext, Quot.sound
- `GoNostr.C12_containsAny`: propext, Quot.sound

## C13

- `GoNostr.C13_startsWith_spec`: propext, Classical.choice, Quot.sound
- `GoNostr.C13_startsWith_empty_prefix_panics`: propext, Quot.sound
- `GoNostr.C13_appendUnique_empty_tag_panics`: propext, Quot.sound
- `GoNostr.C13_filterOut_partial`: propext, Classical.choice, Quot.sound
- `GoNostr.C13_getAll_partial`: propext, Classical.choice, Quot.sound
- `GoNostr.C13_getFirst_partial`: propext, Classical.choice, Quot.sound
- `GoNostr.C13_getLast_partial`: propext, Classical.choice, Quot.sound
- `GoNostr.C13_filterOutInPlace_partial`: propext, Classical.choice, Quot.sound
- `GoNostr.C13_appendUnique_partial`: propext, Classical.choice, Quot.sound
- `GoNostr.C13_appendUnique_may_drop_value`: propext

## C14

- `GoNostr.C14_clone_never_equal`: propext
- `GoNostr.C14_clone_partial`: propext

## C15

- `GoNostr.C15_compareEvent_spec`: propext, Classical.choice, Quot.sound
- `GoNostr.C15_strict_order`: propext, Quot.sound
- `GoNostr.C15_antisymmetric`: propext, Classical.choice, Quot.sound
- `GoNostr.C15_reverse`: none
- `GoNostr.C15_pointer_variants`: none
- `GoNostr.C15_pointer_transitive`: propext, Classical.choice, Quot.sound

## C16

- `GoNostr.C16_names_iff`: propext, Classical.choice, Quot.sound
- `GoNostr.C16_subid_roundtrip`: propext, Classical.choice, Quot.sound
- `GoNostr.C16_subid_distinct`: propext, Classical.choice, Quot.sound
- `GoNostr.C16_no_colon`: propext, Classical.choice, Quot.sound
- `GoNostr.C16_never_panics`: propext, Classical.choice, Quot.sound

## C17

- `GoNostr.C17_extractDTag_total`: propext, Classical.choice, Quot.sound
- `GoNostr.C17_extractTimestamp_total`: propext, Classical.choice, Quot.sound
- `GoNostr.C17_extractSubID_panics_iff`: propext, Classical.choice, Quot.sound
- `GoNostr.C17_extractEventID_panics_iff`: propext, Classical.choice, Quot.sound
- `GoNostr.C17_extractEventPubKey_panics_iff`: propext, Classical.choice, Quot.sound
- `GoNostr.C17_relay_can_crash_reader`: none
- `GoNostr.C17_preparse_ok_partial`: propext, Classical.choice, Quot.sound

## C18

- `GoNostr.Json.C18_agrees_partial`: propext, Classical.choice, Quot.sound
- `GoNostr.Json.C18_dTag_partial`: propext, Classical.choice, Quot.sound
- `GoNostr.Json.C18_relay_layout`: propext, Quot.sound
- `GoNostr.Json.C18_own_layout`: propext, Quot.sound

## C19

- `GoNostr.C19_isValid32ByteHex_iff`: propext, Quot.sound
- `GoNostr.C19_accepts_encodings`: propext, Quot.sound
- `GoNostr.C19_isValidPublicKey_64`: propext, Quot.sound
- `GoNostr.C19_isValidPublicKey_length_partial`: propext, Quot.sound
- `GoNostr.C19_isValidPublicKey_accepts_65`: propext, Quot.sound

## C20

- `GoNostr.C20_normalize_spec`: propext, Classical.choice, Quot.sound
- `GoNostr.C20_normalize_idempotent`: propext, Classical.choice, Quot.sound
- `GoNostr.C20_space_in_prefix_not_idempotent`: none

## C21

- `GoNostr.Json.C21_trailing_rejected`: propext, Quot.sound
- `GoNostr.Json.C21_any_layout`: propext, Classical.choice, Quot.sound
- `GoNostr.Json.C21_any_order`: propext, Classical.choice, Quot.sound
- `GoNostr.Json.C21_any_strings`: propext, Classical.choice, Quot.sound
- `GoNostr.Json.C21_into_used`: propext, Classical.choice, Quot.sound
- `GoNostr.Json.C21_round_trip`: propext, Classical.choice, Quot.sound
- `GoNostr.Json.C21_not_utf8_changes`: propext, Classical.choice, Quot.sound

## C22

- `GoNostr.Json.C22_any_layout`: propext, Classical.choice, Quot.sound
- `GoNostr.Json.C22_what_arrives`: propext, Classical.choice, Quot.sound
- `GoNostr.Json.C22_same_meaning_partial`: propext, Classical.choice, Quot.sound
- `GoNostr.Json.C22_never_narrower`: propext, Classical.choice, Quot.sound
- `GoNostr.Json.C22_empty_list_widens`: propext, Classical.choice, Quot.sound
- `GoNostr.Json.C22_nil_values_narrow`: propext, Classical.choice, Quot.sound
- `GoNostr.Json.C22_tag_names`: propext, Quot.sound

## C23

- `GoNostr.Json.C23_any_layout`: propext, Classical.choice, Quot.sound
- `GoNostr.Json.C23_what_arrives`: propext, Classical.choice, Quot.sound
- `GoNostr.Json.C23_round_trip_partial`: propext, Classical.choice, Quot.sound
- `GoNostr.Json.C23_ok_only_true`: propext, Quot.sound
- `GoNostr.Json.C23_kind_is_label`: propext, Quot.sound
- `GoNostr.Json.C23_unknown_label`: propext, Quot.sound
- `GoNostr.Json.C23_quote_in_id`: propext, Quot.sound
- `GoNostr.Json.C23_req_without_filters`: propext, Quot.sound
- `GoNostr.Json.C23_long_hll`: propext, Quot.sound
- `GoNostr.Json.C23_auth_both`: propext, Quot.sound

## C24

- `GoNostr.Sub.C24_new_filters_not_applied`: propext
- `GoNostr.Sub.C24_only_matching_authentic`: propext, Classical.choice, Quot.sound

## C25

- `GoNostr.Sub.C25_skipped`: propext, Classical.choice, Quot.sound
- `GoNostr.Sub.C25_not_skipped`: propext, Classical.choice, Quot.sound
- `GoNostr.Sub.C25_at_most_once`: propext, Classical.choice, Quot.sound
- `GoNostr.Sub.C25_none_dropped`: propext, Classical.choice, Quot.sound
- `GoNostr.Sub.C25_progress`: propext, Classical.choice, Quot.sound

## C26

- `GoNostr.Sub.C26_eose_once`: propext, Classical.choice, Quot.sound
- `GoNostr.Sub.C26_eose_after_stored`: propext, Classical.choice, Quot.sound
- `GoNostr.Sub.C26_dropped_only_when_ending`: propext, Classical.choice, Quot.sound

## C27

- `GoNostr.Sub.C27_send_on_closed_channel`: propext
- `GoNostr.Sub.C27_no_send_after_close_partial`: propext, Classical.choice, Quot.sound
- `GoNostr.Sub.C27_ends_cleanly`: propext, Classical.choice, Quot.sound
- `GoNostr.Sub.C27_internal_terminates`: propext, Classical.choice, Quot.sound

## C28

- `GoNostr.Sub.C28_close_at_most_once_per_fire`: propext, Classical.choice, Quot.sound
- `GoNostr.Sub.C28_close_at_most_once`: propext, Classical.choice, Quot.sound
- `GoNostr.Sub.C28_none_after_closed`: propext, Classical.choice, Quot.sound
- `GoNostr.Sub.C28_removed`: propext, Classical.choice, Quot.sound

## C29

- `GoNostr.Pub.C29_nil_means_accepted_partial`: propext, Classical.choice, Quot.sound
- `GoNostr.Pub.C29_nil_clean`: propext, Classical.choice, Quot.sound
- `GoNostr.Pub.C29_rejection_has_reason`: propext, Classical.choice, Quot.sound
- `GoNostr.Pub.C29_ctx_error`: propext, Classical.choice, Quot.sound
- `GoNostr.Pub.C29_marks`: propext, Classical.choice, Quot.sound
- `GoNostr.Pub.C29_disconnect_reports_success`: propext
- `GoNostr.Pub.C29_race_reports_success`: propext

## C30

- `GoNostr.Pub.C30_ok_only_for_its_id`: propext, Classical.choice, Quot.sound
- `GoNostr.Pub.C30_ok_reaches_its_call_partial`: propext, Classical.choice, Quot.sound
- `GoNostr.Pub.C30_completes`: propext, Classical.choice, Quot.sound
- `GoNostr.Pub.C30_same_id_starves`: propext

## C31

- `GoNostr.Sub.C31_failed_write_cleans_up_partial`: propext, Classical.choice, Quot.sound
- `GoNostr.Sub.C31_not_connected_leaks`: propext
- `GoNostr.Sub.C31_count_leaks`: propext

## C32

- `GoNostr.Fetch.C32_at_most_once`: propext, Classical.choice, Quot.sound
- `GoNostr.Fetch.C32_at_most_once_ids`: propext, Classical.choice, Quot.sound
- `GoNostr.Fetch.C32_only_received`: propext, Classical.choice, Quot.sound
- `GoNostr.Fetch.C32_complete_partial`: propext, Classical.choice, Quot.sound
- `GoNostr.Fetch.C32_forged_copy_suppresses`: propext, Quot.sound
- `GoNostr.Fetch.C32_live_copy_suppresses`: propext, Quot.sound

## C33

- `GoNostr.Fetch.C33_closed_once_at_end`: propext, Classical.choice, Quot.sound
- `GoNostr.Fetch.C33_nothing_after_close`: propext, Classical.choice, Quot.sound
- `GoNostr.Fetch.C33_closes_when_all_done`: propext, Classical.choice, Quot.sound
- `GoNostr.Fetch.C33_cancel_closes`: propext, Classical.choice, Quot.sound
- `GoNostr.Fetch.C33_empty_closes`: propext

## C34

- `GoNostr.Replaceable.C34_returns_delivered_partial`: propext, Quot.sound
- `GoNostr.Replaceable.C34_newest_never_returned`: propext, Quot.sound
- `GoNostr.Replaceable.C34_refuted`: propext

## C35

- `GoNostr.SubMany.C35_closed_once_partial`: propext, Classical.choice, Quot.sound
- `GoNostr.SubMany.C35_single_never_crashes`: propext, Classical.choice, Quot.sound
- `GoNostr.SubMany.C35_duplicates_never_close`: propext, Classical.choice, Quot.sound
- `GoNostr.SubMany.C35_empty_never_closes`: propext, Quot.sound
- `GoNostr.SubMany.C35_double_close`: propext
- `GoNostr.SubMany.C35_cancel_progress_partial`: propext, Classical.choice, Quot.sound

## C36

- `GoNostr.SubMany.C36_notified_after_all`: propext, Classical.choice, Quot.sound
- `GoNostr.SubMany.C36_fires_when_all`: propext, Classical.choice, Quot.sound

## C37

- `GoNostr.PubMany.C37_one_result_per_url`: propext, Classical.choice, Quot.sound
- `GoNostr.PubMany.C37_send_never_blocks`: propext, Classical.choice, Quot.sound
- `GoNostr.PubMany.C37_closes`: propext, Classical.choice, Quot.sound
- `GoNostr.PubMany.C37_report_meaning`: propext

## C38

- `GoNostr.Fetch.C38_auth_at_most_once`: propext, Classical.choice, Quot.sound
- `GoNostr.Fetch.C38_retry_then_stop`: propext
- `GoNostr.SubMany.C38_subscribe_many`: propext, Classical.choice, Quot.sound
- `GoNostr.SubMany.C38_subscribe_many_on_demand`: propext, Classical.choice, Quot.sound

## C39

- `GoNostr.Ensure.C39_never_refused`: propext, Classical.choice, Quot.sound
- `GoNostr.Ensure.C39_redials_at_once`: propext
- `GoNostr.Ensure.C39_penalty_grows_partial`: propext, Quot.sound
- `GoNostr.Ensure.C39_next_round_partial`: propext, Classical.choice, Quot.sound
- `GoNostr.Ensure.C39_lifted_early`: propext

## C40

- `GoNostr.Ensure.C40_one_live_connection`: propext, Classical.choice, Quot.sound
- `GoNostr.Ensure.C40_reuse_or_replace`: propext, Classical.choice, Quot.sound

## C41

- `GoNostr.SubMany.C41_bounds`: propext, Classical.choice, Quot.sound
- `GoNostr.SubMany.C41_grows`: propext, Classical.choice, Quot.sound
- `GoNostr.SubMany.C41_reaches_limit`: propext, Quot.sound
- `GoNostr.SubMany.C41_workers_follow`: propext, Classical.choice, Quot.sound

## C42

- `GoNostr.Pager.C42_limit_partial`: propext, Quot.sound
- `GoNostr.Pager.C42_only_fetched_in_range`: propext, Quot.sound
- `GoNostr.Pager.C42_single_relay_partial`: propext, Classical.choice, Quot.sound
- `GoNostr.Pager.C42_limit_zero_sends_one`: none
- `GoNostr.Pager.C42_sends_twice`: none
- `GoNostr.Pager.C42_loses_ties`: none
- `GoNostr.Pager.C42_two_relays_lose`: none

## C43

- `GoNostr.CountMany.C43_order_and_multiplicity_irrelevant_partial`: propext, Classical.choice, Quot.sound
- `GoNostr.CountMany.C43_is_union_partial`: propext, Classical.choice, Quot.sound
- `GoNostr.CountMany.C43_lost_update`: propext

## C44

- `GoNostr.Neg.C44_varint_roundtrip`: propext, Classical.choice, Quot.sound
- `GoNostr.Neg.C44_out_of_range_panics`: propext, Classical.choice, Quot.sound
- `GoNostr.Neg.C44_injective`: propext, Classical.choice, Quot.sound

## C45

- `GoNostr.Neg.C45_bounds_roundtrip`: propext, Classical.choice, Quot.sound
- `GoNostr.Neg.C45_decreasing_panics`: propext, Classical.choice, Quot.sound

## C46

- `GoNostr.Neg.C46_separates_partial`: propext, Classical.choice, Quot.sound
- `GoNostr.Neg.C46_long_prefix_not_separated`: propext, Classical.choice, Quot.sound

## C47

- `GoNostr.Neg.C47_add_partial`: propext, Classical.choice, Quot.sound
- `GoNostr.Neg.C47_accumulate_partial`: propext, Classical.choice, Quot.sound
- `GoNostr.Neg.C47_order_irrelevant_partial`: propext, Classical.choice, Quot.sound
- `GoNostr.Neg.C47_lost_carry`: propext
- `GoNostr.Neg.C47_equal_sets_equal_fingerprints`: propext, Classical.choice, Quot.sound

## C48

- `GoNostr.Neg.C48_findLowerBound`: propext, Classical.choice, Quot.sound
- `GoNostr.Neg.C48_seal_sorts`: propext, Classical.choice, Quot.sound
- `GoNostr.Neg.C48_built`: propext, Classical.choice, Quot.sound
- `GoNostr.Neg.C48_insert_after_seal`: propext

## C49

- `GoNostr.Neg.C49_split_partitions`: propext, Classical.choice, Quot.sound

## C50

- `GoNostr.Neg.C50_both_limits_lose`: propext, Classical.choice, Quot.sound
- `GoNostr.Neg.C50_limit_repeats`: propext, Classical.choice, Quot.sound
- `GoNostr.Neg.C50_limits_partial`: propext, Classical.choice, Quot.sound
- `GoNostr.Neg.C50_small_limits_refused`: propext, Classical.choice, Quot.sound
- `GoNostr.Neg.C50_reconciliation_partial`: propext, Classical.choice, Quot.sound

## C51

- `GoNostr.Nip19.C51_bech32_roundtrip`: propext, Classical.choice, Quot.sound
- `GoNostr.Nip19.C51_rejects_wide_data`: propext, Quot.sound
- `GoNostr.Nip19.C51_regroup_roundtrip`: propext, Classical.choice, Quot.sound

## C52

- `GoNostr.Nip19.C52_keys_roundtrip`: propext, Classical.choice, Quot.sound
- `GoNostr.Nip19.C52_encode_rejects`: propext, Quot.sound
- `GoNostr.Nip19.C52_codes_injective`: propext, Classical.choice, Quot.sound

## C53

- `GoNostr.Nip19.C53_nprofile_roundtrip`: propext, Classical.choice, Quot.sound
- `GoNostr.Nip19.C53_nevent_roundtrip`: propext, Classical.choice, Quot.sound
- `GoNostr.Nip19.C53_naddr_roundtrip_partial`: propext, Classical.choice, Quot.sound
- `GoNostr.Nip19.C53_naddr_empty_identifier_lost`: propext, Classical.choice, Quot.sound
- `GoNostr.Nip19.C53_long_relay_corrupted`: propext, Classical.choice, Quot.sound
- `GoNostr.Nip19.C53_pointer_roundtrip_partial`: propext, Classical.choice, Quot.sound
- `GoNostr.Nip19.C53_event_kind_lost`: propext, Classical.choice, Quot.sound

## C54

- `GoNostr.Nip19.C54_decode_no_panic_partial`: propext, Classical.choice, Quot.sound
- `GoNostr.Nip19.C54_naddr_short_kind_panics`: propext, Classical.choice, Quot.sound
- `GoNostr.Nip19.C54_toPointer_no_new_panic`: propext, Quot.sound

## C55

- `GoNostr.Nip44.C55_bucket_rule`: propext, Classical.choice, Quot.sound
- `GoNostr.Nip44.C55_small`: none
- `GoNostr.Nip44.C55_rejects`: propext, Quot.sound
- `GoNostr.Nip44.C55_padded_length`: propext, Classical.choice, Quot.sound
- `GoNostr.Nip44.C55_unpad_pad`: propext, Classical.choice, Quot.sound

## C56

- `GoNostr.Nip44.C56_roundtrip`: propext, Classical.choice, Quot.sound
- `GoNostr.Nip44.C56_encrypt_errors`: propext, Quot.sound
- `GoNostr.Nip44.C56_layout`: propext, Classical.choice, Quot.sound

## C57

- `GoNostr.Nip44.C57_accepts_only_authentic`: propext, Quot.sound
- `GoNostr.Nip44.C57_tampered_rejected`: propext, Quot.sound
- `GoNostr.Nip44.C57_panics_iff_only_line_breaks`: propext, Classical.choice, Quot.sound

## C58

- `GoNostr.Nip04.C58_roundtrip`: propext, Classical.choice, Quot.sound
- `GoNostr.Nip04.C58_decrypt_panics_iff`: propext, Classical.choice, Quot.sound
- `GoNostr.Nip04.C58_panic_witness`: propext, Classical.choice, Quot.sound

## C59

- `GoNostr.Nip49.C59_roundtrip`: propext, Classical.choice, Quot.sound
- `GoNostr.Nip49.C59_encrypt_rejects`: propext, Quot.sound
- `GoNostr.Nip49.C59_decrypt_panics_iff`: propext, Classical.choice, Quot.sound
- `GoNostr.Nip49.C59_panic_witness`: propext, Classical.choice, Quot.sound

## C60

- `GoNostr.Pow.C60_difficultyBytes`: propext, Quot.sound
- `GoNostr.Pow.C60_difficulty`: propext, Quot.sound
- `GoNostr.Pow.C60_difficulty_getID`: propext, Quot.sound
- `GoNostr.Pow.C60_check`: propext, Quot.sound
- `GoNostr.Pow.C60_committed`: propext, Classical.choice, Quot.sound
- `GoNostr.Pow.C60_short_id_panics`: propext, Quot.sound

## C61

- `GoNostr.Pow.C61_result_valid`: propext, Classical.choice, Quot.sound
- `GoNostr.Pow.C61_errors`: propext, Classical.choice, Quot.sound
- `GoNostr.Pow.C61_nonces_tried`: propext, Quot.sound
- `GoNostr.Pow.C61_partition`: propext, Quot.sound
- `GoNostr.Pow.C61_stops`: propext, Classical.choice, Quot.sound
- `GoNostr.Pow.C61_earlier_nonce_hides_result`: propext, Quot.sound

## C62

- `GoNostr.HLL.C62_registers_are_max_ranks`: propext, Classical.choice, Quot.sound
- `GoNostr.HLL.C62_order_and_repetition_irrelevant`: propext, Classical.choice, Quot.sound
- `GoNostr.HLL.C62_merge_is_union`: propext, Classical.choice, Quot.sound
- `GoNostr.HLL.C62_merge_semilattice`: propext, Classical.choice, Quot.sound
- `GoNostr.HLL.C62_clear`: propext, Quot.sound
- `GoNostr.HLL.C62_add_eq_addBytes`: propext, Classical.choice, Quot.sound

## C63

- `GoNostr.HLL.C63_add_in_range`: propext, Classical.choice, Quot.sound
- `GoNostr.HLL.C63_values_bounded`: propext, Classical.choice, Quot.sound
- `GoNostr.HLL.C63_merge_bounded`: propext, Classical.choice, Quot.sound
- `GoNostr.HLL.C63_bad_shapes_panic`: propext, Classical.choice, Quot.sound
- `GoNostr.HLL.C63_filter_offset_range`: propext, Classical.choice, Quot.sound

## C64

- `GoNostr.HLL.C64_event_offsets_agree_with_filter`: propext, Classical.choice, Quot.sound
- `GoNostr.HLL.C64_all_followed_are_yielded`: propext, Classical.choice, Quot.sound

## C65

- `GoNostr.Ptr.C65_from_tag_valid`: propext, Quot.sound
- `GoNostr.Ptr.C65_profile_roundtrip`: propext, Quot.sound
- `GoNostr.Ptr.C65_event_roundtrip_partial`: propext, Quot.sound
- `GoNostr.Ptr.C65_entity_roundtrip`: propext, Classical.choice, Quot.sound
- `GoNostr.Ptr.C65_fromTag_panics_iff`: propext, Quot.sound
- `GoNostr.Ptr.C65_author_lost`: propext, Quot.sound
- `GoNostr.Ptr.C65_large_kind_rejected`: propext, Classical.choice, Quot.sound
- `GoNostr.Ptr.C65_event_filter`: propext, Quot.sound
- `GoNostr.Ptr.C65_entity_filter_partial`: propext, Quot.sound
- `GoNostr.Ptr.C65_entity_filter_finds`: propext, Quot.sound
- `GoNostr.Ptr.C65_entity_filter_differs`: propext
- `GoNostr.Ptr.C65_profile_filter_differs`: propext, Quot.sound

## C66

- `GoNostr.Thread.C66_root_marked`: propext, Quot.sound
- `GoNostr.Thread.C66_root_positional`: propext, Classical.choice, Quot.sound
- `GoNostr.Thread.C66_root_nil_iff`: propext, Classical.choice, Quot.sound
- `GoNostr.Thread.C66_bad_root_gives_empty_pointer`: propext, Quot.sound
- `GoNostr.Thread.C66_parent_reply`: propext, Quot.sound
- `GoNostr.Thread.C66_parent_fallback`: propext, Quot.sound
- `GoNostr.Thread.C66_parent_nil_iff`: propext, Classical.choice, Quot.sound
- `GoNostr.Thread.C66_reply_to_address_lost`: propext, Quot.sound

## C67

- `GoNostr.Thread.C67_root`: propext, Quot.sound
- `GoNostr.Thread.C67_parent`: propext, Quot.sound
- `GoNostr.Thread.C67_nil_iff`: propext, Classical.choice, Quot.sound

## C68

- `GoNostr.Thread.C68_first_tag`: propext
- `GoNostr.Thread.C68_roundtrip`: propext, Quot.sound
- `GoNostr.Thread.C68_none`: propext

## C69

- `GoNostr.Auth.C69_validate_iff`: propext, Classical.choice, Quot.sound
- `GoNostr.Auth.C69_returned_key_signed`: propext, Classical.choice, Quot.sound
- `GoNostr.Auth.C69_created_event_accepted`: propext, Classical.choice, Quot.sound

## C70

- `GoNostr.Gift.C70_unwrap_iff`: propext, Quot.sound
- `GoNostr.Gift.C70_roundtrip`: propext, Quot.sound
- `GoNostr.Gift.C70_wrap_signed_by_throwaway`: propext, Quot.sound
- `GoNostr.Gift.C70_seal_kind_unchecked`: propext, Quot.sound

## C71

- `GoNostr.Sdk.C71_refines_map`: propext, Quot.sound
- `GoNostr.Sdk.C71_buffer_aliasing`: propext
- `GoNostr.Sdk.C71_closed`: propext

## C72

- `GoNostr.Sdk.C72_codec`: propext, Quot.sound
- `GoNostr.Sdk.C72_event_relays_partial`: propext, Quot.sound
- `GoNostr.Sdk.C72_length_256_loses_record`: propext, Quot.sound
- `GoNostr.Sdk.C72_prefix_collision`: propext, Quot.sound

## C73

- `GoNostr.Hints.C73_newest_kept`: propext, Classical.choice, Quot.sound
- `GoNostr.Hints.C73_topn_partial`: propext, Classical.choice, Quot.sound
- `GoNostr.Hints.C73_topn_zero_returns_all`: propext, Classical.choice, Quot.sound
- `GoNostr.Hints.C73_panics`: propext, Quot.sound
- `GoNostr.Hints.C73_concurrent_save_misattributes`: propext

## C74

- `GoNostr.Loader.C74_batches`: propext, Classical.choice, Quot.sound
- `GoNostr.Loader.C74_answers`: propext, Classical.choice, Quot.sound
- `GoNostr.Loader.C74_progress`: propext, Classical.choice, Quot.sound
- `GoNostr.Loader.C74_duplicate_keys`: propext

## C75

- `GoNostr.Sdk.C75_newest_per_pubkey`: propext, Classical.choice, Quot.sound
- `GoNostr.Sdk.C75_each_relay_asked`: propext, Quot.sound

## C76

- `GoNostr.Sdk.C76_newest_per_d`: propext, Classical.choice, Quot.sound

## C77

- `GoNostr.Sdk.C77_characterisation_partial`: propext, Quot.sound
- `GoNostr.Sdk.C77_complete_when_new`: propext, Quot.sound
- `GoNostr.Sdk.C77_stops_at_duplicate`: propext

## C78

- `GoNostr.Sdk.C78_first_occurrences`: propext, Classical.choice, Quot.sound
- `GoNostr.Sdk.C78_sets`: propext, Quot.sound
- `GoNostr.Sdk.C78_accepted_tags`: propext, Classical.choice, Quot.sound
- `GoNostr.Sdk.C78_relay_markers`: propext, Classical.choice, Quot.sound
- `GoNostr.Sdk.C78_event_lists_always_empty`: propext

## C79

- `GoNostr.Wot.C79_late_caller_waits_forever`: propext, Classical.choice, Quot.sound
- `GoNostr.Wot.C79_one_load`: propext, Classical.choice, Quot.sound
- `GoNostr.Wot.C79_own_outcome`: propext, Classical.choice, Quot.sound
- `GoNostr.Wot.C79_progress_partial`: propext, Classical.choice, Quot.sound

## C80

- `GoNostr.Sdk.C80_rotation_partial`: propext, Quot.sound
- `GoNostr.Sdk.C80_overflow_panics`: propext, Quot.sound

## C81

- `GoNostr.Sdk.C81_hit_partial`: propext, Quot.sound
- `GoNostr.Sdk.C81_slot_iff`: propext, Quot.sound
- `GoNostr.Sdk.C81_suffix_collision`: propext, Quot.sound

## C82

- `GoNostr.Nip60.C82_send_partial`: propext, Classical.choice, Quot.sound
- `GoNostr.Nip60.C82_exact_spend_keeps_tokens`: propext, Classical.choice, Quot.sound
- `GoNostr.Nip60.C82_error_keeps_tokens`: propext, Quot.sound

## C83

- `GoNostr.Nip60.C83_selection`: propext, Classical.choice, Quot.sound
- `GoNostr.Nip60.C83_not_enough`: propext, Classical.choice, Quot.sound
- `GoNostr.Nip60.C83_other_failures`: propext, Classical.choice, Quot.sound
- `GoNostr.Nip60.C83_split_exact`: propext, Classical.choice, Quot.sound
- `GoNostr.Nip60.C83_receive_underflows`: propext, Quot.sound
- `GoNostr.Nip60.C83_pay_change_underflows`: propext

## C84

- `GoNostr.Nip60.C84_last_processed_wins`: propext, Quot.sound
- `GoNostr.Nip60.C84_hidden_then_public`: propext, Quot.sound
- `GoNostr.Nip60.C84_newest_partial`: propext, Quot.sound
- `GoNostr.Nip60.C84_older_event_overrides`: propext, Quot.sound
- `GoNostr.Nip60.C84_unreadable`: propext, Classical.choice, Quot.sound
- `GoNostr.Nip60.C84_reported`: propext, Classical.choice, Quot.sound

## C85

- `GoNostr.Nip60.C85_nutzap_never_locked`: propext, Classical.choice, Quot.sound
- `GoNostr.Nip60.C85_locked_partial`: propext, Classical.choice, Quot.sound
- `GoNostr.Nip60.C85_nostr_key_not_locked`: propext, Classical.choice, Quot.sound
- `GoNostr.Nip60.C85_change_is_locked_too`: propext, Classical.choice, Quot.sound

## C86

- `GoNostr.Bunker.C86_sessions_partial`: propext, Classical.choice, Quot.sound
- `GoNostr.Bunker.C86_static`: propext, Classical.choice, Quot.sound
- `GoNostr.Bunker.C86_unlocked_read`: propext, Quot.sound
- `GoNostr.Bunker.C86_dynamic_other_handler`: propext, Classical.choice, Quot.sound

## C87

- `GoNostr.Bunker.C87_static_refused`: propext, Quot.sound
- `GoNostr.Bunker.C87_static_result_approved`: propext, Quot.sound
- `GoNostr.Bunker.C87_dynamic_refused`: propext, Quot.sound
- `GoNostr.Bunker.C87_dynamic_secret_ignored`: propext, Quot.sound
- `GoNostr.Bunker.C87_dynamic_connect_unauthorized`: propext, Quot.sound

## C88

- `GoNostr.Keyer.C88_plain_key`: propext, Classical.choice, Quot.sound
- `GoNostr.Keyer.C88_plain_key_own`: propext, Classical.choice, Quot.sound
- `GoNostr.Keyer.C88_encrypted_key_never_decrypts`: propext, Quot.sound
- `GoNostr.Keyer.C88_encrypted_key_encrypts_partial`: propext, Classical.choice, Quot.sound
- `GoNostr.Keyer.C88_bunker_never_decrypts`: propext, Classical.choice, Quot.sound

## C89

- `GoNostr.Group.C89_merge_partial`: propext, Classical.choice, Quot.sound
- `GoNostr.Group.C89_flags_stuck`: propext, Classical.choice, Quot.sound
- `GoNostr.Group.C89_texts_stuck`: propext, Classical.choice, Quot.sound
- `GoNostr.Group.C89_other_group_merged`: propext, Classical.choice, Quot.sound
- `GoNostr.Group.C89_metadata_roundtrip_partial`: propext, Classical.choice, Quot.sound
- `GoNostr.Group.C89_newest_name_partial`: propext, Classical.choice, Quot.sound
- `GoNostr.Group.C89_members_added`: propext, Classical.choice, Quot.sound
- `GoNostr.Group.C89_members_never_removed`: propext, Classical.choice, Quot.sound
- `GoNostr.Group.C89_members_roundtrip_partial`: propext, Classical.choice, Quot.sound
- `GoNostr.Group.C89_admins_doubled`: propext, Quot.sound

## C90

- `GoNostr.Blocks.C90_tiles_partial`: propext, Classical.choice, Quot.sound
- `GoNostr.Blocks.C90_no_panic_partial`: propext, Classical.choice, Quot.sound
- `GoNostr.Blocks.C90_panics`: propext, Quot.sound

## C91

- `GoNostr.Codec.CalRead.C91_calendar_read`: propext, Quot.sound
- `GoNostr.Codec.C91_repository`: propext, Quot.sound
- `GoNostr.Codec.C91_repository_state`: propext, Quot.sound
- `GoNostr.Codec.C91_calendar_partial`: propext, Quot.sound
- `GoNostr.Codec.C91_calendar_image_lost`: propext, Quot.sound
- `GoNostr.Codec.C91_image_not_shown`: propext
- `GoNostr.Codec.C91_file_metadata_partial`: propext, Quot.sound
- `GoNostr.Codec.C91_file_mime_lost`: propext
- `GoNostr.Codec.C91_nutzap_info`: propext, Quot.sound
- `GoNostr.Codec.C91_nutzap_info_reuse`: propext, Quot.sound
- `GoNostr.Codec.C91_history_partial`: propext, Quot.sound
- `GoNostr.Codec.C91_history_zero_lost`: propext, Quot.sound
- `GoNostr.Codec.FileRead.C91_file_read`: propext
- `GoNostr.Codec.FileRead.C91_display`: propext
- `GoNostr.Codec.FileRead.C91_displayed_is_thumb`: propext

## C92

- `GoNostr.Nip19.C92_decode_wellformed`: propext, Classical.choice, Quot.sound

## C93

- `GoNostr.Sdk.C93_list_newest_partial`: propext, Classical.choice, Quot.sound
- `GoNostr.Sdk.C93_sets_refresh`: propext, Classical.choice, Quot.sound
- `GoNostr.Sdk.C93_short_pubkey_panics`: propext, Quot.sound

## C94

- `GoNostr.Nip60.C94_stored_events`: propext, Quot.sound
- `GoNostr.Nip60.C94_later_deletion_partial`: propext, Quot.sound
- `GoNostr.Nip60.C94_deleted_token_returns`: propext

## C95

- `GoNostr.Bunker.C95_static_partial`: propext, Quot.sound
- `GoNostr.Bunker.C95_empty_result_loses_id`: propext, Quot.sound
- `GoNostr.Bunker.C95_dynamic_partial`: propext, Quot.sound
- `GoNostr.Bunker.C95_dynamic_empty_result`: propext, Quot.sound

## C96

- `GoNostr.Bunker.C96_static_partial`: propext, Classical.choice, Quot.sound
- `GoNostr.Bunker.C96_static_panics`: propext, Classical.choice, Quot.sound
- `GoNostr.Bunker.C96_dynamic_partial`: propext, Classical.choice, Quot.sound
- `GoNostr.Bunker.C96_dynamic_panics`: propext, Classical.choice, Quot.sound
- `GoNostr.Bunker.C96_get_relays_panics`: propext, Quot.sound

## C97

- `GoNostr.Keyer.C97_encrypted_key_partial`: propext
- `GoNostr.Keyer.C97_wrong_key_cached`: propext

## C98

- `GoNostr.Blocks.C98_pointers`: propext, Classical.choice, Quot.sound

## C99

- `GoNostr.Json.C99_extra_member_rejected`: propext, Classical.choice, Quot.sound
- `GoNostr.Json.C99_witness`: propext
- `GoNostr.Json.C99_null_ignored_partial`: propext, Classical.choice, Quot.sound

## C100

- `GoNostr.Json.C100_round_trip_partial`: propext, Classical.choice, Quot.sound
- `GoNostr.Json.C100_error_lost`: propext, Classical.choice, Quot.sound
- `GoNostr.Json.C100_error_of_nip77`: propext, Classical.choice, Quot.sound

## C101

- `GoNostr.Json.C101_crash`: propext, Quot.sound
- `GoNostr.Json.C101_no_crash_partial`: propext, Classical.choice, Quot.sound
- `GoNostr.Json.C101_crash_iff`: propext, Classical.choice, Quot.sound

## C102

- `GoNostr.Client.C102_own_answer`: propext, Classical.choice, Quot.sound
- `GoNostr.Client.C102_own_error`: propext, Classical.choice, Quot.sound
- `GoNostr.Client.C102_one_call`: propext, Classical.choice, Quot.sound
- `GoNostr.Client.C102_no_leak`: propext, Classical.choice, Quot.sound

## C103

- `GoNostr.Client.C103_crash`: propext, Quot.sound
- `GoNostr.Client.C103_crash_second_answer`: propext, Quot.sound
- `GoNostr.Client.C103_no_crash_partial`: propext, Classical.choice, Quot.sound
- `GoNostr.Client.C103_crash_by_anyone`: propext
- `GoNostr.Client.C103_stall`: propext, Classical.choice, Quot.sound

## C104

- `GoNostr.Client.C104_never_called`: propext, Classical.choice, Quot.sound

## C105

- `GoNostr.Client.C105_valid_partial`: propext, Quot.sound
- `GoNostr.Client.C105_no_panic`: propext, Quot.sound
- `GoNostr.Client.C105_other_event`: propext, Classical.choice, Quot.sound

## C106

- `GoNostr.NegSync.C106_ends_partial`: propext, Quot.sound
- `GoNostr.NegSync.C106_hangs`: propext, Quot.sound
- `GoNostr.NegSync.C106_both_fits`: propext

## C107

- `GoNostr.NegSync.C107_lost`: propext, Quot.sound
- `GoNostr.NegSync.C107_all_transferred_partial`: propext, Classical.choice, Quot.sound
- `GoNostr.NegSync.C107_no_stranger_partial`: propext, Classical.choice, Quot.sound

## C108

- `GoNostr.Neg.AfterEnd.C108_after_end`: propext, Classical.choice, Quot.sound
- `GoNostr.Neg.C108_second_end`: propext, Quot.sound
- `GoNostr.Neg.C108_long_bound`: propext, Quot.sound
- `GoNostr.Neg.C108_decreasing`: propext, Quot.sound
- `GoNostr.Neg.C108_wellformed_partial`: propext, Classical.choice, Quot.sound
- `GoNostr.Neg.C108_server_partial`: propext, Classical.choice, Quot.sound
- `GoNostr.Neg.C108_tame_partial`: propext, Classical.choice, Quot.sound

## C109

- `GoNostr.Sdk.C109_reads_partial`: propext, Quot.sound
- `GoNostr.Sdk.C109_bad_npub_panics`: propext, Classical.choice, Quot.sound
- `GoNostr.Sdk.C109_bad_nprofile_panics`: propext, Classical.choice, Quot.sound
- `GoNostr.Sdk.C109_keyless_profile`: propext, Classical.choice, Quot.sound
- `GoNostr.Sdk.C109_idless_event`: propext, Classical.choice, Quot.sound
- `GoNostr.Sdk.C109_panics_partial`: propext, Classical.choice, Quot.sound

## C110

- `GoNostr.Sdk.C110_points_partial`: propext
- `GoNostr.Sdk.C110_found`: propext, Quot.sound
- `GoNostr.Sdk.C110_profile_any_event`: propext
- `GoNostr.Sdk.C110_not_newest`: propext
- `GoNostr.Sdk.C110_stale`: propext
- `GoNostr.Sdk.C110_newest_partial`: propext, Quot.sound

## C111

- `GoNostr.Sdk.C111_priority_last`: propext, Quot.sound
- `GoNostr.Sdk.C111_author_relay_not_asked`: propext
- `GoNostr.Sdk.C111_hints_asked_partial`: propext, Quot.sound
- `GoNostr.Sdk.C111_at_most_two`: propext, Quot.sound

## C112

- `GoNostr.Sdk.C112_source_partial`: propext, Quot.sound
- `GoNostr.Sdk.C112_n_ignored`: propext
- `GoNostr.Sdk.C112_fallback_ignores_n`: propext, Classical.choice, Quot.sound
- `GoNostr.Sdk.C112_short_key_panics`: propext, Quot.sound
- `GoNostr.Sdk.C112_no_other_panic`: propext, Classical.choice, Quot.sound
- `GoNostr.Sdk.C112_listed_partial`: propext, Quot.sound

## C113

- `GoNostr.Sdk.C113_only_asked_partial`: propext, Quot.sound
- `GoNostr.Sdk.C113_first_page_empty`: propext, Classical.choice, Quot.sound
- `GoNostr.Sdk.C113_local_events_missing`: propext, Quot.sound
- `GoNostr.Sdk.C113_continues_partial`: propext, Classical.choice, Quot.sound
- `GoNostr.Sdk.C113_next_starts_partial`: propext, Quot.sound
- `GoNostr.Sdk.C113_mark_reset`: propext, Quot.sound
- `GoNostr.Sdk.C113_local_suffices`: propext, Classical.choice, Quot.sound

## C114

- `GoNostr.Sdk.C114_right_user_partial`: propext, Classical.choice, Quot.sound
- `GoNostr.Sdk.C114_never_older_partial`: propext, Classical.choice, Quot.sound
- `GoNostr.Sdk.C114_newest_partial`: propext, Classical.choice, Quot.sound
- `GoNostr.Sdk.C114_not_before_a_week`: propext, Quot.sound
- `GoNostr.Sdk.C114_other_users_profile`: propext, Quot.sound
- `GoNostr.Sdk.C114_stale`: propext, Quot.sound
- `GoNostr.Sdk.C114_refused_write_goes_back`: propext, Quot.sound
- `GoNostr.Sdk.C114_short_name_panics`: propext, Classical.choice, Quot.sound
- `GoNostr.Sdk.C114_short_name`: propext, Classical.choice, Quot.sound
- `GoNostr.Sdk.ProfileKind.C114_parses_iff`: propext
- `GoNostr.Sdk.ProfileKind.C114_bad_answer_ignored`: propext, Quot.sound

## C115

- `GoNostr.Sdk.C115_virtual_iff`: propext, Quot.sound
- `GoNostr.Sdk.C115_recorded_partial`: propext, Quot.sound
- `GoNostr.Sdk.C115_attempts`: propext, Quot.sound
- `GoNostr.Sdk.C115_both`: propext, Classical.choice, Quot.sound
- `GoNostr.Sdk.C115_relay_list_unchecked`: propext, Classical.choice, Quot.sound
- `GoNostr.Sdk.C115_hint_for_nobody`: propext, Quot.sound
- `GoNostr.Sdk.C115_virtual_recorded`: propext, Quot.sound
- `GoNostr.Sdk.C115_panics`: propext, Quot.sound

## C116

- `GoNostr.Url.C116_idempotent_partial`: propext, Classical.choice, Quot.sound
- `GoNostr.Url.C116_same_relay_partial`: propext, Quot.sound
- `GoNostr.Url.C116_scheme`: propext
- `GoNostr.Url.C116_localhost_in_capitals`: propext
- `GoNostr.Url.C116_scheme_in_capitals`: propext
- `GoNostr.Url.C116_long_scheme`: propext

## C117

- `GoNostr.Nip05.C117_grammar`: propext, Quot.sound
- `GoNostr.Nip05.C117_url`: propext, Quot.sound
- `GoNostr.Nip05.C117_normalize`: propext, Quot.sound
- `GoNostr.Nip05.C117_lookup`: propext, Quot.sound
- `GoNostr.Nip05.C117_plus`: propext, Quot.sound

## C118

- `GoNostr.Nip86.C118_decodes_partial`: propext, Quot.sound
- `GoNostr.Nip86.C118_panics_iff_partial`: propext, Classical.choice, Quot.sound
- `GoNostr.Nip86.C118_admin_crashes`: propext, Classical.choice, Quot.sound
- `GoNostr.Nip86.C118_odd_name_erases`: propext, Quot.sound
- `GoNostr.Nip86.C118_others_usable`: propext, Quot.sound

## C119

- `GoNostr.Nip70.C119_is_protected`: propext, Quot.sound
- `GoNostr.Nip70.C119_other_kinds`: propext
- `GoNostr.Nip70.C119_own_layout_partial`: propext, Classical.choice, Quot.sound
- `GoNostr.Nip70.C119_overlooked`: propext, Quot.sound

## C120

- `GoNostr.Dm.C120_both_read`: propext, Classical.choice, Quot.sound
- `GoNostr.Dm.C120_prepared_iff_partial`: propext, Classical.choice, Quot.sound
- `GoNostr.Dm.C120_long_message`: propext, Classical.choice, Quot.sound
- `GoNostr.Dm.C120_delivers`: propext, Quot.sound
- `GoNostr.Dm.C120_crash`: propext, Classical.choice, Quot.sound
- `GoNostr.Dm.C120_crash_iff`: propext, Quot.sound
- `GoNostr.Dm.C120_asked_for_partial`: propext, Quot.sound
- `GoNostr.Dm.C120_since`: propext, Quot.sound
- `GoNostr.Dm.C120_dm_relays`: propext, Quot.sound
- `GoNostr.Dm.C120_publish`: propext, Quot.sound
- `GoNostr.Dm.C120_never_authenticates`: propext, Quot.sound

## C121

- `GoNostr.HintStores.C121_disk_newest`: propext, Classical.choice, Quot.sound
- `GoNostr.HintStores.C121_disk_topn`: propext, Classical.choice, Quot.sound
- `GoNostr.HintStores.C121_disk_detailed`: propext, Quot.sound
- `GoNostr.HintStores.C121_same_as_memory`: propext, Classical.choice, Quot.sound
- `GoNostr.HintStores.C121_disk_panics`: propext, Classical.choice, Quot.sound
- `GoNostr.HintStores.C121_disk_refused`: propext, Quot.sound
- `GoNostr.HintStores.C121_time_zero_differs`: propext, Quot.sound
- `GoNostr.HintStores.C121_short_key`: propext, Quot.sound
- `GoNostr.HintStores.C121_conflict_drops`: propext
- `GoNostr.HintStores.C121_concurrent_monotone`: propext, Classical.choice, Quot.sound
- `GoNostr.HintStores.C121_sql_last`: propext, Classical.choice, Quot.sound
- `GoNostr.HintStores.C121_sql_forgets_newer`: propext, Quot.sound
- `GoNostr.HintStores.C121_sql_newest_partial`: propext, Classical.choice, Quot.sound

## C122

- `GoNostr.Sdk.C122_badger_is_map`: propext, Quot.sound
- `GoNostr.Sdk.C122_lmdb_is_strict_map`: propext, Quot.sound
- `GoNostr.Sdk.C122_strict_contents`: propext, Quot.sound
- `GoNostr.Sdk.C122_interchangeable`: propext, Quot.sound
- `GoNostr.Sdk.C122_differences`: propext
- `GoNostr.Sdk.C122_refused`: propext
- `GoNostr.Sdk.C122_update_atomic`: propext, Quot.sound
- `GoNostr.Sdk.C122_overlapping_update_fails`: propext

## C123

- `GoNostr.Conn.C123_written_once`: propext, Classical.choice, Quot.sound
- `GoNostr.Conn.C123_in_order`: propext, Quot.sound
- `GoNostr.Conn.C123_one_answer`: propext, Classical.choice, Quot.sound
- `GoNostr.Conn.C123_close_once`: propext, Classical.choice, Quot.sound
- `GoNostr.Conn.C123_subscriptions_end`: propext, Classical.choice, Quot.sound
- `GoNostr.Conn.C123_late_subscribe_leaks`: propext
- `GoNostr.Conn.C123_nothing_after_teardown`: propext, Quot.sound
- `GoNostr.Conn.C123_three_failed_pings`: propext, Classical.choice, Quot.sound
- `GoNostr.Conn.C123_all_ends_partial`: propext, Classical.choice, Quot.sound
- `GoNostr.Conn.C123_unread_answer_stalls`: propext, Classical.choice, Quot.sound
- `GoNostr.Conn.C123_stall_reached`: propext
- `GoNostr.Conn.C123_close_can_crash`: propext
- `GoNostr.Conn.C123_close_safe_partial`: propext, Classical.choice, Quot.sound
- `GoNostr.Conn.C123_unconnected_write_waits`: propext, Classical.choice, Quot.sound

## C124

- `GoNostr.Nip60.C124_pay_partial`: propext, Classical.choice, Quot.sound
- `GoNostr.Nip60.C124_pay_error_keeps_tokens`: propext, Quot.sound
- `GoNostr.Nip60.C124_change_lost`: propext, Quot.sound
- `GoNostr.Nip60.C124_exact_payment_keeps_tokens`: propext, Quot.sound
- `GoNostr.Nip60.C124_paid_and_error`: propext, Quot.sound
- `GoNostr.Nip60.C124_gives_up_with_enough`: propext, Quot.sound
- `GoNostr.Nip60.C124_receive_where`: propext, Quot.sound
- `GoNostr.Nip60.C124_receive_partial`: propext, Quot.sound
- `GoNostr.Nip60.C124_destination_ignored`: propext, Quot.sound
- `GoNostr.Nip60.C124_swap_with_fee_never_works`: propext, Quot.sound
- `GoNostr.Nip60.C124_moving_costs`: propext, Quot.sound
- `GoNostr.Nip60.C124_own_mint_loses`: propext, Quot.sound
- `GoNostr.Nip60.C124_receive_error_keeps_tokens`: propext, Quot.sound
- `GoNostr.Nip60.C124_send_external`: propext, Quot.sound

## C125

- `GoNostr.Nip60.C125_amount`: propext, Quot.sound
- `GoNostr.Nip60.C125_no_amount`: propext, Quot.sound
- `GoNostr.Nip60.C125_only_mainnet`: propext, Quot.sound
- `GoNostr.Nip60.C125_unknown_unit`: propext, Quot.sound
- `GoNostr.Nip60.C125_wraps`: propext

## C126

- `GoNostr.Json.Sonic.C126_crash_needs`: propext, Classical.choice, Quot.sound
- `GoNostr.Json.Sonic.C126_crash`: propext, Classical.choice, Quot.sound
- `GoNostr.Json.Sonic.C126_event_agrees`: propext
- `GoNostr.Json.Sonic.C126_null_refused`: propext
- `GoNostr.Json.Sonic.C126_filter_agrees`: propext, Classical.choice, Quot.sound
- `GoNostr.Json.Sonic.C126_messages`: propext, Classical.choice, Quot.sound
- `GoNostr.Json.Sonic.C126_nil_pointer`: propext, Classical.choice, Quot.sound
- `GoNostr.Json.Sonic.C126_empty_id`: propext, Classical.choice, Quot.sound
- `GoNostr.Json.Sonic.C126_count_members`: propext, Classical.choice, Quot.sound
- `GoNostr.Json.Sonic.C126_refused_but_there`: propext, Classical.choice, Quot.sound
- `GoNostr.Json.Sonic.C126_no_array`: propext, Quot.sound
- `GoNostr.Json.Sonic.C126_reads`: propext, Classical.choice, Quot.sound

## C127

- `GoNostr.Json.SonicMemory.C127_read_now`: propext, Quot.sound
- `GoNostr.Json.SonicMemory.C127_usable`: propext, Quot.sound
- `GoNostr.Json.SonicMemory.C127_others_untouched`: propext, Quot.sound
- `GoNostr.Json.SonicMemory.C127_next_message`: propext, Quot.sound
- `GoNostr.Json.SonicMemory.C127_same_number`: propext, Quot.sound
- `GoNostr.Json.SonicMemory.C127_new_parser`: none

## C128

- `GoNostr.Query.C128_sound`: propext, Classical.choice, Quot.sound
- `GoNostr.Query.C128_all_stored`: propext, Classical.choice, Quot.sound
- `GoNostr.Query.C128_why`: propext, Classical.choice, Quot.sound
- `GoNostr.Query.C128_returns`: propext, Classical.choice, Quot.sound
- `GoNostr.Query.C128_own_terminates`: propext, Classical.choice, Quot.sound
- `GoNostr.Query.C128_order_not_kept`: propext
- `GoNostr.Query.C128_excluded_event_returned`: propext
- `GoNostr.Query.C128_refusal_is_no_error`: propext

## C129

- `GoNostr.RelayCount.C129_answer`: propext, Quot.sound
- `GoNostr.RelayCount.C129_no_crash`: propext, Quot.sound
- `GoNostr.RelayCount.C129_returns`: propext, Quot.sound
- `GoNostr.RelayCount.C129_reader_stuck`: propext
- `GoNostr.RelayCount.C129_stuck_forever`: propext, Quot.sound
- `GoNostr.RelayCount.C129_not_stuck_partial`: propext, Quot.sound
- `GoNostr.RelayCount.C129_closed_ignored`: propext

## C130

- `GoNostr.Multi.C130_query`: propext, Classical.choice, Quot.sound
- `GoNostr.Multi.C130_query_exists`: propext, Classical.choice, Quot.sound
- `GoNostr.Multi.C130_limit_and_duplicates`: propext, Classical.choice, Quot.sound
- `GoNostr.Multi.C130_publish`: propext, Quot.sound
- `GoNostr.Multi.C130_stream_error`: propext, Classical.choice, Quot.sound
- `GoNostr.Multi.C130_stream`: propext, Classical.choice, Quot.sound
- `GoNostr.Multi.C130_stream_never_ends`: propext, Classical.choice, Quot.sound
- `GoNostr.Multi.C130_abandoned`: propext, Classical.choice, Quot.sound

## C131

- `GoNostr.Nip61.C131_accepts_iff`: propext, Quot.sound
- `GoNostr.Nip61.C131_blind_signature`: propext, Quot.sound
- `GoNostr.Nip61.C131_honest_accepted`: propext, Quot.sound
- `GoNostr.Nip61.C131_no_crash_partial`: propext, Quot.sound
- `GoNostr.Nip61.C131_crash`: propext, Quot.sound
- `GoNostr.Nip61.C131_worth`: propext, Quot.sound
- `GoNostr.Nip61.C131_special_soundness`: propext, Classical.choice, Quot.sound
- `GoNostr.Nip61.C131_unblinded`: propext, Quot.sound

## C132

- `GoNostr.Live.C132_live_read`: propext, Quot.sound
- `GoNostr.Live.C132_host`: propext, Quot.sound
- `GoNostr.Live.C132_no_host`: propext, Quot.sound
- `GoNostr.Live.C132_live_round_trip_partial`: propext, Quot.sound
- `GoNostr.Live.C132_times_never_read`: propext, Quot.sound
- `GoNostr.Live.C132_live_lost`: propext, Quot.sound
- `GoNostr.Live.C132_imeta_read`: propext, Quot.sound
- `GoNostr.Live.C132_imeta_distrust`: propext, Quot.sound
- `GoNostr.Live.C132_imeta_round_trip`: propext, Quot.sound
- `GoNostr.Live.C132_imeta_get`: propext, Quot.sound
- `GoNostr.Live.C132_imeta_odd`: propext

## C133

- `GoNostr.LiveFeed.C133_closes_once`: propext, Classical.choice, Quot.sound
- `GoNostr.LiveFeed.C133_can_end`: propext, Classical.choice, Quot.sound
- `GoNostr.LiveFeed.C133_no_users_never_ends`: propext
- `GoNostr.LiveFeed.C133_abandoned`: propext, Quot.sound

## C134

- `GoNostr.LiveFeed.C134_sound`: propext, Quot.sound
- `GoNostr.LiveFeed.C134_complete_partial`: propext, Quot.sound
- `GoNostr.LiveFeed.C134_newer_accepted`: propext, Quot.sound
- `GoNostr.LiveFeed.C134_record_of_tenth`: propext, Quot.sound
- `GoNostr.LiveFeed.C134_records`: propext, Quot.sound
- `GoNostr.LiveFeed.C134_moved_since`: propext
- `GoNostr.LiveFeed.C134_other_relay_breaks`: propext

## C135

- `GoNostr.WotLoad.C135_complete`: propext, Classical.choice, Quot.sound
- `GoNostr.WotLoad.C135_ends`: propext, Classical.choice, Quot.sound
- `GoNostr.WotLoad.C135_limit`: propext, Quot.sound
- `GoNostr.WotLoad.C135_filter`: propext, Classical.choice, Quot.sound
- `GoNostr.WotLoad.C135_wot`: propext, Classical.choice, Quot.sound
- `GoNostr.WotLoad.C135_crash`: propext, Quot.sound
- `GoNostr.WotLoad.C135_stranger`: propext, Classical.choice, Quot.sound

## C136

- `GoNostr.Nip60.Settings.C136_round_trip`: propext, Quot.sound
- `GoNostr.Nip60.Settings.C136_add`: propext, Quot.sound
- `GoNostr.Nip60.Settings.C136_add_half_done`: propext, Quot.sound
- `GoNostr.Nip60.Settings.C136_add_collision`: propext, Quot.sound
- `GoNostr.Nip60.Settings.C136_remove_partial`: propext, Classical.choice, Quot.sound
- `GoNostr.Nip60.Settings.C136_add_nodup`: propext, Quot.sound
- `GoNostr.Nip60.Settings.C136_not_removed`: propext, Classical.choice, Quot.sound
- `GoNostr.Nip60.Settings.C136_twice`: propext, Quot.sound
- `GoNostr.Nip60.Settings.C136_key`: propext, Quot.sound
- `GoNostr.Nip60.Settings.C136_read_only`: propext, Quot.sound

## C137

- `GoNostr.Mentions.C137_appends`: propext, Quot.sound
- `GoNostr.Mentions.C137_mentions_tagged`: propext, Classical.choice, Quot.sound
- `GoNostr.Mentions.C137_not_idempotent`: propext, Quot.sound
- `GoNostr.Mentions.C137_tagged_twice`: propext, Quot.sound

## C138

- `GoNostr.Mentions.C138_mentions`: propext, Classical.choice, Quot.sound
- `GoNostr.Mentions.C138_pointer`: propext, Quot.sound
- `GoNostr.Mentions.C138_empty_relay`: propext, Quot.sound
- `GoNostr.Mentions.RefPointers.C138_codes`: propext, Classical.choice, Quot.sound

## C139

- `GoNostr.GiveUp.C139_all_gone_ends`: propext, Classical.choice, Quot.sound
- `GoNostr.GiveUp.C139_not_before`: propext, Classical.choice, Quot.sound
- `GoNostr.GiveUp.C139_one_waits_for_all`: propext, Classical.choice, Quot.sound
- `GoNostr.GiveUp.C139_lost_update`: propext
- `GoNostr.GiveUp.C139_plain_partial`: propext, Classical.choice, Quot.sound

## C140

- `GoNostr.SdkKeys.C140_relays`: propext, Quot.sound
- `GoNostr.SdkKeys.C140_sources`: propext
- `GoNostr.SdkKeys.C140_some`: propext, Quot.sound
- `GoNostr.SdkKeys.C140_three_partial`: propext, Quot.sound
- `GoNostr.SdkKeys.C140_fewer`: propext

## C141

- `GoNostr.SdkKeys.C141_last_fetch`: propext, Quot.sound
- `GoNostr.SdkKeys.C141_apart`: propext, Quot.sound
- `GoNostr.SdkKeys.C141_stream_partial`: propext, Classical.choice, Quot.sound
- `GoNostr.SdkKeys.C141_shared`: propext, Quot.sound
- `GoNostr.SdkKeys.C141_invalid`: propext, Quot.sound
- `GoNostr.SdkKeys.C141_times`: propext, Quot.sound

## C142

- `GoNostr.KeyMaking.C142_valid`: propext, Classical.choice, Quot.sound
- `GoNostr.KeyMaking.C142_even`: propext, Classical.choice, Quot.sound
- `GoNostr.KeyMaking.C142_no_randomness`: propext, Quot.sound

## C143

- `GoNostr.KeyMaking.C143_nsec`: propext, Classical.choice, Quot.sound
- `GoNostr.KeyMaking.C143_ncryptsec`: propext, Classical.choice, Quot.sound
- `GoNostr.KeyMaking.C143_hex`: propext, Quot.sound
- `GoNostr.KeyMaking.C143_bunker`: propext, Quot.sound
- `GoNostr.KeyMaking.C143_name_partial`: propext, Quot.sound
- `GoNostr.KeyMaking.C143_only`: propext, Classical.choice, Quot.sound
- `GoNostr.KeyMaking.C143_odd`: propext, Quot.sound
- `GoNostr.KeyMaking.C143_panics`: propext, Classical.choice, Quot.sound

## C144

- `GoNostr.Media.C144_check`: propext, Quot.sound
- `GoNostr.Media.C144_delete`: propext, Classical.choice, Quot.sound
- `GoNostr.Media.C144_list`: propext, Classical.choice, Quot.sound
- `GoNostr.Media.C144_download`: propext, Classical.choice, Quot.sound
- `GoNostr.Media.C144_file`: propext, Quot.sound
- `GoNostr.Media.C144_upload`: propext, Classical.choice, Quot.sound
- `GoNostr.Media.C144_one_thing`: propext, Quot.sound
- `GoNostr.Media.C144_refused`: propext, Quot.sound
- `GoNostr.Media.C144_server`: propext, Quot.sound
- `GoNostr.Media.C144_not_checked`: propext, Quot.sound
- `GoNostr.Media.C144_changed`: propext, Classical.choice, Quot.sound
- `GoNostr.Media.C144_file_lost`: propext, Quot.sound
- `GoNostr.Media.C144_delete_any`: propext, Quot.sound

## C145

- `GoNostr.Media.C145_request`: propext, Quot.sound
- `GoNostr.Media.C145_token`: propext, Classical.choice, Quot.sound
- `GoNostr.Media.C145_unsigned`: propext, Quot.sound

## C146

- `GoNostr.Libsecp.C146_agree`: propext, Classical.choice, Quot.sound
- `GoNostr.Libsecp.C146_accepts`: propext, Classical.choice, Quot.sound
- `GoNostr.Libsecp.C146_crash_iff`: propext, Classical.choice, Quot.sound
- `GoNostr.Libsecp.C146_sign`: propext, Classical.choice, Quot.sound
- `GoNostr.Libsecp.C146_short_key`: propext, Quot.sound
- `GoNostr.Libsecp.C146_crash`: propext, Quot.sound
- `GoNostr.Libsecp.C146_sign_short`: propext, Quot.sound

## C147

- `GoNostr.Names.C147_added`: propext, Quot.sound
- `GoNostr.Names.C147_twice`: propext
- `GoNostr.Names.C147_fetch`: propext, Quot.sound
- `GoNostr.Names.C147_where`: none
- `GoNostr.Names.C147_short`: propext
- `GoNostr.Names.C147_crash_iff`: propext, Quot.sound
- `GoNostr.Names.C147_odd_scheme`: none

## C148

- `GoNostr.Names.C148_includes`: propext, Quot.sound
- `GoNostr.Names.C148_kinds`: propext, Classical.choice, Quot.sound
- `GoNostr.Names.C148_unordered`: propext, Quot.sound
- `GoNostr.Names.C148_parse`: propext, Quot.sound
- `GoNostr.Names.C148_round_trip_partial`: propext, Quot.sound
- `GoNostr.Names.C148_valid`: propext, Quot.sound
- `GoNostr.Names.C148_lost`: propext

## C149

- `GoNostr.Names.C149_characters`: propext, Quot.sound
- `GoNostr.Names.C149_ascii`: propext, Classical.choice, Quot.sound
- `GoNostr.Names.C149_idempotent_partial`: propext, Classical.choice, Quot.sound
- `GoNostr.Names.C149_not_idempotent`: propext, Classical.choice, Quot.sound

## C150

- `GoNostr.Names.C150_last`: propext, Classical.choice, Quot.sound
- `GoNostr.Names.C150_mixed`: propext, Quot.sound

## C151

- `GoNostr.Reader.C151_justified`: propext, Classical.choice, Quot.sound
- `GoNostr.Reader.C151_asked`: propext, Classical.choice, Quot.sound
- `GoNostr.Reader.C151_crash_iff`: propext, Classical.choice, Quot.sound
- `GoNostr.Reader.C151_event_partial`: propext, Classical.choice, Quot.sound
- `GoNostr.Reader.C151_checked_partial`: propext, Classical.choice, Quot.sound
- `GoNostr.Reader.C151_others`: propext, Classical.choice, Quot.sound
- `GoNostr.Reader.C151_escaped_dropped`: propext, Quot.sound
- `GoNostr.Reader.C151_unnamed_delivered`: propext, Quot.sound

## C152

- `GoNostr.Batched.C152_at_most_once`: propext, Classical.choice, Quot.sound
- `GoNostr.Batched.C152_only_received`: propext, Classical.choice, Quot.sound
- `GoNostr.Batched.C152_closed_once`: propext, Classical.choice, Quot.sound
- `GoNostr.Batched.C152_nothing_after_close`: propext, Classical.choice, Quot.sound
- `GoNostr.Batched.C152_complete_partial`: propext, Classical.choice, Quot.sound
- `GoNostr.Batched.C152_cancel_closes`: propext, Classical.choice, Quot.sound
- `GoNostr.Batched.C152_closes_when_all_done`: propext, Classical.choice, Quot.sound
- `GoNostr.Batched.C152_empty_closes`: propext
- `GoNostr.Batched.C152_other_filter_suppresses`: propext

## C153

- `GoNostr.Batched.C153_answer`: propext, Classical.choice, Quot.sound
- `GoNostr.Batched.C153_nil_partial`: propext, Classical.choice, Quot.sound
- `GoNostr.Batched.C153_forged_copy_hides`: propext, Quot.sound

## C154

- `GoNostr.Sdk.C154_search_partial`: propext, Quot.sound
- `GoNostr.Sdk.C154_any_event`: propext
- `GoNostr.Sdk.C154_repeated`: propext

## C155

- `GoNostr.Sdk.C155_confirmed`: propext, Classical.choice, Quot.sound
- `GoNostr.Sdk.C155_weekly`: propext, Classical.choice, Quot.sound
- `GoNostr.Sdk.C155_changed_name`: propext, Classical.choice, Quot.sound

## C156

- `GoNostr.Sdk.C156_event_input`: propext, Classical.choice, Quot.sound
- `GoNostr.Sdk.C156_profile_input`: propext, Quot.sound
- `GoNostr.Sdk.C156_virtual_remembered`: propext, Quot.sound

## C157

- `GoNostr.Sdk.C157_kinds`: propext

## C158

- `GoNostr.Nip60.C158_tried`: propext, Classical.choice, Quot.sound
- `GoNostr.Nip60.C158_published`: propext, Classical.choice, Quot.sound
- `GoNostr.Nip60.C158_not_accepted`: propext, Quot.sound
- `GoNostr.Nip60.C158_error_partial`: propext, Quot.sound
- `GoNostr.Nip60.C158_from_own_tokens`: propext, Classical.choice, Quot.sound
- `GoNostr.Nip60.C158_never_locked`: propext, Classical.choice, Quot.sound
- `GoNostr.Nip60.C158_signing_loses`: propext, Quot.sound
- `GoNostr.Nip60.C158_paid_twice`: propext, Quot.sound

## C159

- `GoNostr.Names.C159_state_partial`: propext, Quot.sound
- `GoNostr.Names.C159_any_author`: propext, Quot.sound
- `GoNostr.Names.C159_patches`: propext, Quot.sound
- `GoNostr.Names.C159_repository_partial`: propext, Classical.choice, Quot.sound
- `GoNostr.Names.C159_other_repository`: propext, Quot.sound

## C160

- `GoNostr.Names.C160_tags`: propext, Classical.choice, Quot.sound
- `GoNostr.Names.C160_options`: propext, Quot.sound
- `GoNostr.Names.C160_unnamed`: propext

## C161

- `GoNostr.Neg.C161_ids_partial`: propext, Classical.choice, Quot.sound
- `GoNostr.Neg.C161_one_round_partial`: propext, Classical.choice, Quot.sound
- `GoNostr.NegFetch.C161_closed_is_complete`: propext, Quot.sound
- `GoNostr.NegFetch.C161_refusal_hangs`: propext, Quot.sound
- `GoNostr.NegFetch.C161_ends_partial`: propext, Classical.choice, Quot.sound
- `GoNostr.NegFetch.C161_lost_hangs`: propext, Quot.sound
- `GoNostr.NegFetch.C161_consumer_gone`: propext, Quot.sound

## C162

- `GoNostr.Curve.C162_same_secret`: propext, Classical.choice, Quot.sound
- `GoNostr.Curve.C162_same_conversation_key`: propext, Classical.choice, Quot.sound
- `GoNostr.Curve.C162_recipient_exists`: propext, Classical.choice, Quot.sound
- `GoNostr.Curve.C162_keyers`: propext, Classical.choice, Quot.sound

## C163

- `GoNostr.Curve.C163_secret_iff`: propext, Classical.choice, Quot.sound
- `GoNostr.Curve.C163_refuses_partial`: propext, Classical.choice, Quot.sound
- `GoNostr.Curve.C163_zero_in_disguise`: propext, Classical.choice, Quot.sound
- `GoNostr.Curve.C163_nip04_zero`: propext, Classical.choice, Quot.sound
- `GoNostr.Curve.C163_longer_keys`: propext, Classical.choice, Quot.sound

## C164

- `GoNostr.Curve.C164_valid_iff_owned`: propext, Classical.choice, Quot.sound
- `GoNostr.Curve.C164_generated_valid`: propext, Classical.choice, Quot.sound
- `GoNostr.Curve.C164_same_public_key`: propext, Classical.choice, Quot.sound
- `GoNostr.Curve.C164_zero_key`: propext, Classical.choice, Quot.sound

## C165

- `GoNostr.Curve.C165_verify_iff`: propext, Classical.choice, Quot.sound
- `GoNostr.Curve.C165_library_contract`: propext, Classical.choice, Quot.sound
- `GoNostr.Curve.C165_always_signs`: propext, Classical.choice, Quot.sound
- `GoNostr.Curve.C165_sign_then_check`: propext, Classical.choice, Quot.sound
- `GoNostr.Curve.C165_second_half_unique`: propext, Classical.choice, Quot.sound
- `GoNostr.Curve.C165_one_hash`: propext, Classical.choice, Quot.sound
- `GoNostr.Curve.C165_signature_binds_fields`: propext, Classical.choice, Quot.sound

## C166

- `GoNostr.Curve.C166_message_arrives`: propext, Classical.choice, Quot.sound
- `GoNostr.Curve.C166_too_long`: propext, Classical.choice, Quot.sound

## C167

- `GoNostr.Curve.C167_point`: propext, Classical.choice, Quot.sound
- `GoNostr.Curve.C167_honest_mint`: propext, Classical.choice, Quot.sound
- `GoNostr.Curve.C167_taken_is_passed_on`: propext, Classical.choice, Quot.sound
- `GoNostr.Curve.C167_forgery`: propext, Classical.choice, Quot.sound
- `GoNostr.Curve.C167_accepted`: propext, Classical.choice, Quot.sound
- `GoNostr.Curve.C167_worthless_taken`: propext, Classical.choice, Quot.sound
- `GoNostr.Curve.C167_prepared`: propext, Classical.choice, Quot.sound
- `GoNostr.Curve.C167_blinded`: propext, Classical.choice, Quot.sound

## C168

- `GoNostr.Curve.Unlock.C168_unlocks`: propext, Classical.choice, Quot.sound
- `GoNostr.Curve.Unlock.C168_nostr_key_lock`: propext, Classical.choice, Quot.sound
- `GoNostr.Curve.Unlock.C168_output_signed`: propext, Classical.choice, Quot.sound
- `GoNostr.Curve.Unlock.C168_not_for_others`: propext, Classical.choice, Quot.sound
- `GoNostr.Curve.Unlock.C168_nutzaps_unlocked`: propext, Classical.choice, Quot.sound
- `GoNostr.Curve.Unlock.C168_no_key`: propext, Classical.choice, Quot.sound

## C169

- `GoNostr.Curve.Remote.C169_sign`: propext, Classical.choice, Quot.sound
- `GoNostr.Curve.Remote.C169_public_key`: propext, Classical.choice, Quot.sound
- `GoNostr.Curve.Remote.C169_encrypt`: propext, Classical.choice, Quot.sound
- `GoNostr.Curve.Remote.C169_decrypt`: propext, Classical.choice, Quot.sound
- `GoNostr.Curve.Remote.C169_nip04`: propext, Classical.choice, Quot.sound
- `GoNostr.Curve.Remote.C169_refused`: propext, Classical.choice, Quot.sound
- `GoNostr.Curve.Remote.C169_anyone_stops_the_signer`: propext, Classical.choice, Quot.sound
- `GoNostr.Curve.Remote.C169_anyone_stops_the_client`: propext, Classical.choice, Quot.sound

## C170

- `GoNostr.Nip60.Race.C170_received`: propext, Classical.choice, Quot.sound
- `GoNostr.Nip60.Race.C170_quiet_partial`: propext, Quot.sound
- `GoNostr.Nip60.Race.C170_stored_partial`: propext, Quot.sound
- `GoNostr.Nip60.Race.C170_deletion_lost`: propext
- `GoNostr.Nip60.Race.C170_token_lost_and_doubled`: propext
- `GoNostr.Nip60.Race.C170_crash`: propext
- `GoNostr.Nip60.Race.C170_without_deletions`: propext, Quot.sound

## C171

- `GoNostr.Nip60.C171_del_empty`: propext, Quot.sound
- `GoNostr.Nip60.C171_devices_agree_partial`: propext, Quot.sound
- `GoNostr.Nip60.C171_exact_spend_diverges`: propext, Classical.choice, Quot.sound
- `GoNostr.Nip60.C171_failed_change_diverges`: propext, Quot.sound
- `GoNostr.Nip60.C171_unsigned_deletion`: propext, Quot.sound
- `GoNostr.Nip60.C171_received_twice`: propext, Classical.choice, Quot.sound

## C172

- `GoNostr.Hints.C172_better`: propext, Classical.choice, Quot.sound
- `GoNostr.Hints.C172_fits`: propext, Classical.choice, Quot.sound
- `GoNostr.Hints.C172_success_cancels`: propext, Classical.choice, Quot.sound
- `GoNostr.Hints.C172_only_tried`: propext, Classical.choice, Quot.sound
- `GoNostr.Hints.C172_list_before_hint_partial`: propext, Classical.choice, Quot.sound
- `GoNostr.Hints.C172_old_list_loses`: propext, Classical.choice, Quot.sound
- `GoNostr.Hints.C172_quiet_authors_sink`: propext, Classical.choice, Quot.sound
- `GoNostr.Hints.C172_topn`: propext, Classical.choice, Quot.sound
- `GoNostr.Hints.C172_working_relay_avoided`: propext, Classical.choice, Quot.sound

## C173

- `GoNostr.HLL.C173_exact_small`: propext, Classical.choice, Quot.sound
- `GoNostr.HLL.C173_at_least`: propext, Classical.choice, Quot.sound
- `GoNostr.HLL.C173_grows_partial`: propext, Classical.choice, Quot.sound
- `GoNostr.HLL.C173_falls`: propext, Classical.choice, Quot.sound
- `GoNostr.HLL.C173_one_relay_zeroes`: propext, Classical.choice, Quot.sound
- `GoNostr.HLL.C173_negative`: propext, Classical.choice, Quot.sound

## C174

- `GoNostr.Curve.C174_words`: propext, Classical.choice, Quot.sound
- `GoNostr.Curve.C174_valid_words`: propext, Classical.choice, Quot.sound
- `GoNostr.Curve.C174_space_changes_seed`: propext, Classical.choice, Quot.sound
- `GoNostr.Curve.C174_valid`: propext, Classical.choice, Quot.sound
- `GoNostr.Curve.C174_bip32`: propext, Classical.choice, Quot.sound
- `GoNostr.Curve.C174_watched`: propext, Classical.choice, Quot.sound

## C175

- `GoNostr.SqlRank.C175_better`: propext, Classical.choice, Quot.sound
- `GoNostr.SqlRank.C175_close`: propext, Classical.choice, Quot.sound
- `GoNostr.SqlRank.C175_topn`: propext, Classical.choice, Quot.sound
- `GoNostr.SqlRank.C175_agree_partial`: propext, Classical.choice, Quot.sound
- `GoNostr.SqlRank.C175_backwards`: propext, Classical.choice, Quot.sound
- `GoNostr.SqlRank.C175_zero`: propext, Classical.choice, Quot.sound
- `GoNostr.SqlRank.C175_detailed_partial`: propext, Classical.choice, Quot.sound
- `GoNostr.SqlRank.C175_detailed_drops`: propext, Classical.choice, Quot.sound

## C176

- `GoNostr.Group.C176_admins`: propext, Classical.choice, Quot.sound
- `GoNostr.Group.C176_refused`: propext, Quot.sound
- `GoNostr.Group.C176_history_partial`: propext, Classical.choice, Quot.sound
- `GoNostr.Group.C176_never_removed`: propext, Classical.choice, Quot.sound
- `GoNostr.Group.C176_demoted_stays`: propext, Quot.sound
- `GoNostr.Group.C176_new`: propext, Quot.sound
- `GoNostr.Group.C176_roles_page`: propext, Quot.sound
- `GoNostr.Group.C176_roles_date`: propext, Quot.sound

## C177

- `GoNostr.HttpUrl.C177_query`: propext, Quot.sound
- `GoNostr.HttpUrl.C177_order`: propext, Quot.sound
- `GoNostr.HttpUrl.C177_query_settled_partial`: propext, Quot.sound
- `GoNostr.HttpUrl.C177_other_parameters`: propext, Quot.sound
- `GoNostr.HttpUrl.C177_eaten`: propext, Quot.sound
- `GoNostr.HttpUrl.C177_form`: propext, Classical.choice, Quot.sound
- `GoNostr.HttpUrl.C177_same`: propext, Classical.choice, Quot.sound
- `GoNostr.HttpUrl.C177_settled_partial`: propext, Classical.choice, Quot.sound
- `GoNostr.HttpUrl.C177_unreadable`: propext, Quot.sound
- `GoNostr.HttpUrl.C177_two_slashes`: propext, Quot.sound
- `GoNostr.HttpUrl.C177_downgrade`: propext, Classical.choice, Quot.sound

## C178

- `GoNostr.Nip60.C178_asked`: propext, Classical.choice, Quot.sound
- `GoNostr.Nip60.C178_loaded_partial`: propext, Classical.choice, Quot.sound
- `GoNostr.Nip60.C178_strangers`: propext, Classical.choice, Quot.sound
- `GoNostr.Nip60.C178_devices_partial`: propext, Classical.choice, Quot.sound
- `GoNostr.Nip60.C178_unmarked`: propext, Classical.choice, Quot.sound

## C179

- `GoNostr.SdkSystem.C179_configured`: propext
- `GoNostr.SdkSystem.C179_kv_closed`: propext, Quot.sound
- `GoNostr.SdkSystem.C179_in_use_open_partial`: propext, Quot.sound
- `GoNostr.SdkSystem.C179_twice`: propext, Quot.sound
- `GoNostr.SdkSystem.C179_close_leaks`: propext, Quot.sound
- `GoNostr.SdkSystem.C179_relays_partial`: propext, Classical.choice, Quot.sound
- `GoNostr.SdkSystem.C179_empty`: propext, Quot.sound

## C180

- `GoNostr.EndToEnd.C180_arrives_partial`: propext, Classical.choice, Quot.sound
- `GoNostr.EndToEnd.C180_not_utf8`: propext, Classical.choice, Quot.sound

## C181

- `GoNostr.AuthOver.C181_question`: propext, Classical.choice, Quot.sound
- `GoNostr.AuthOver.C181_answer_partial`: propext, Classical.choice, Quot.sound
- `GoNostr.AuthOver.C181_signed`: propext, Classical.choice, Quot.sound
- `GoNostr.AuthOver.C181_too_early`: propext, Classical.choice, Quot.sound
- `GoNostr.AuthOver.C181_not_utf8`: propext, Classical.choice, Quot.sound

## C182

- `GoNostr.NegStores.C182_sync_partial`: propext, Classical.choice, Quot.sound

## C183

- `GoNostr.Nip60.C183_answer_iff`: propext, Classical.choice, Quot.sound
- `GoNostr.Nip60.C183_active_keyset`: propext, Classical.choice, Quot.sound
- `GoNostr.Nip60.C183_keyset_by_id_crash`: propext, Classical.choice, Quot.sound
- `GoNostr.Nip60.C183_swap_crash_iff`: propext, Classical.choice, Quot.sound
- `GoNostr.Nip60.C183_right_partial`: propext, Quot.sound
- `GoNostr.Nip60.C183_crash`: propext, Quot.sound
- `GoNostr.Nip60.C183_short`: propext, Quot.sound

## C184

- `GoNostr.SeenOn.C184_remembered_partial`: propext, Classical.choice, Quot.sound
- `GoNostr.SeenOn.C184_early_copy_forgotten`: propext, Quot.sound
- `GoNostr.SeenOn.C184_forger_remembered`: propext, Quot.sound

## C185

- `GoNostr.Nip60.Locks.C185_stuck_iff`: propext, Classical.choice, Quot.sound
- `GoNostr.Nip60.Locks.C185_finishes_partial`: propext, Classical.choice, Quot.sound
- `GoNostr.Nip60.Locks.C185_exclusive`: propext, Quot.sound
- `GoNostr.Nip60.Locks.C185_echo`: propext

## C186

- `GoNostr.Nip60.During.C186_send_partial`: propext, Classical.choice, Quot.sound
- `GoNostr.Nip60.During.C186_spent_token_stays`: propext, Quot.sound
- `GoNostr.Nip60.During.C186_unspent_token_lost`: propext, Quot.sound

## C187

- `GoNostr.Live.C187_once_partial`: propext, Classical.choice, Quot.sound
- `GoNostr.Live.C187_once_before_eose`: propext, Classical.choice, Quot.sound
- `GoNostr.Live.C187_first_kept_partial`: propext, Classical.choice, Quot.sound
- `GoNostr.Live.C187_asked`: propext
- `GoNostr.Live.C187_twice`: propext
- `GoNostr.Live.C187_forged_first`: propext
- `GoNostr.Live.C187_late_relay`: propext

## C188

- `GoNostr.Curve.Remote.ZeroKey.C188_fails_iff`: propext, Classical.choice, Quot.sound
- `GoNostr.Curve.Remote.ZeroKey.C188_npub`: propext, Classical.choice, Quot.sound
- `GoNostr.Curve.Remote.ZeroKey.C188_signer_reads_partial`: propext, Classical.choice, Quot.sound
- `GoNostr.Curve.Remote.ZeroKey.C188_anyone_reads`: propext, Classical.choice, Quot.sound
- `GoNostr.Curve.Remote.ZeroKey.C188_anyone_answers`: propext, Classical.choice, Quot.sound

