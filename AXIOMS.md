# Axioms used by each theorem

| property | theorem | axioms |
|---|---|---|
| C01 | `C01_varchar_roundtrip` | propext, Classical.choice, Quot.sound |
| C01 | `C01_varchar_format` | propext, Classical.choice, Quot.sound |
| C02 | `C02_decodeVarchar_ok_iff` | propext, Classical.choice, Quot.sound |
| C02 | `C02_decodeVarchar_in_bounds` | propext, Classical.choice, Quot.sound |
| C02 | `C02_decodeVarchar_empty` | propext, Quot.sound |
| C03 | `C03_refuted` | propext, Quot.sound |
| C03 | `C03_decodeVarchar_panics_iff_partial` | propext, Classical.choice, Quot.sound |
| C03 | `C03_decodeVarchar_short_safe_partial` | propext, Classical.choice, Quot.sound |
| C04 | `C04_refuted` | propext, Quot.sound |
| C04 | `C04_uvarint_roundtrip_partial` | propext, Classical.choice, Quot.sound |
| C04 | `C04_decodeUvarint64_ok_iff_partial` | propext, Classical.choice, Quot.sound |
| C04 | `C04_decodeUvarint64_no_panic_partial` | propext, Quot.sound |
| C05 | `C05_refuted` | propext, Quot.sound |
| C05 | `C05_varint_roundtrip_partial` | propext, Classical.choice, Quot.sound |
| C05 | `C05_varint_format` | propext, Classical.choice, Quot.sound |
| C05 | `C05_decodeVarint64_no_panic_partial` | propext, Quot.sound |
| C06 | `C06_uvarint_canonical` | propext, Classical.choice, Quot.sound |
| C06 | `C06_uvarint_minimal` | propext, Classical.choice, Quot.sound |
| C06 | `C06_uvarint_prefix_free` | propext, Classical.choice, Quot.sound |
| C07 | `C07_key_roundtrip` | propext, Classical.choice, Quot.sound |
| C07 | `C07_key_roundtrip_equal` | propext, Classical.choice, Quot.sound |
| C08 | `C08_key_size_limit` | propext, Classical.choice, Quot.sound |
| C09 | `C09_key_encoding_prefix_free` | propext, Classical.choice, Quot.sound |
| C10 | `C10_refuted` | propext, Quot.sound |
| C10 | `C10_mappedKey_buf_partial` | propext, Quot.sound |
| C11 | `C11_key_buf_history_partial` | propext, Classical.choice, Quot.sound |
| C11 | `C11_refuted` | propext, Classical.choice, Quot.sound |
| C12 | `C12_key_equal_iff` | propext, Classical.choice, Quot.sound |
| C12 | `C12_key_equal_equivalence` | propext, Classical.choice, Quot.sound |
| C13 | `C13_refuted` | propext |
| C13 | `C13_key_compare_panics_iff_partial` | propext, Classical.choice, Quot.sound |
| C13 | `C13_key_compare_lexicographic_partial` | propext, Classical.choice, Quot.sound |
| C13 | `C13_key_compare_panics_only_greater_partial` | propext, Classical.choice, Quot.sound |
| C13 | `C13_key_compare_zero_iff_partial` | propext, Classical.choice, Quot.sound |
| C14 | `C14_equal_keys_hash_equal` | propext, Classical.choice, Quot.sound |
| C15 | `C15_hash_equal_iff_partial` | propext, Classical.choice, Quot.sound |
| C15 | `C15_refuted` | propext, Classical.choice, Quot.sound |
| C15 | `C15_simple_keys_separable_partial` | propext, Classical.choice, Quot.sound |
| C16 | `C16_key_estimate` | propext, Classical.choice, Quot.sound |
| C16 | `C16_other_keys` | none |
| C17 | `C17_refuted` | propext |
| C17 | `C17_compare_panics_iff_partial` | propext, Quot.sound |
| C17 | `C17_compare_lexicographic_partial` | propext, Classical.choice, Quot.sound |
| C17 | `C17_equal_iff` | propext, Classical.choice, Quot.sound |
| C17 | `C17_compare_zero_iff` | propext, Classical.choice, Quot.sound |
| C17 | `C17_spec_order_linear` | propext, Classical.choice, Quot.sound |
| C18 | `C18_sortedMap_refines` | propext, Classical.choice, Quot.sound |
| C19 | `C19_sortedMap_balanced` | propext, Classical.choice, Quot.sound |
| C19 | `C19_lookup_cost` | propext, Classical.choice, Quot.sound |
| C20 | `C20_sorted_iteration` | propext, Classical.choice, Quot.sound |
| C20 | `C20_hasNext_loop` | propext, Classical.choice, Quot.sound |
| C21 | `C21_observers` | propext, Classical.choice, Quot.sound |
| C21 | `C21_refines_list` | propext, Classical.choice, Quot.sound |
| C22 | `C22_refuted` | propext, Classical.choice, Quot.sound |
| C22 | `C22_range_iteration_partial` | propext, Classical.choice, Quot.sound |
| C22 | `C22_correct_iff_partial` | propext, Classical.choice, Quot.sound |
| C23 | `C23_upper_bounded` | propext, Classical.choice, Quot.sound |
| C24 | `C24_panic_safety` | propext, Classical.choice, Quot.sound |
| C24 | `C24_composite_keys` | propext, Classical.choice, Quot.sound |
| C24 | `C24_unguarded_corrupts` | propext, Classical.choice, Quot.sound |
| C25 | `C25_nil_partial` | propext, Classical.choice, Quot.sound |
| C25 | `C25_nil_absent_partial` | propext, Classical.choice, Quot.sound |
| C25 | `C25_absent_partial` | propext, Classical.choice, Quot.sound |
| C25 | `C25_history_refuted` | propext |
| C25 | `C25_refuted` | propext |
| C25 | `C25_nil_key_refuted` | propext |
| C25 | `C25_prefix_free_partial` | propext, Classical.choice, Quot.sound |
| C25 | `C25_nonnil_partial` | propext, Classical.choice, Quot.sound |
| C26 | `C26_refuted` | propext, Classical.choice, Quot.sound |
| C26 | `C26_exhausted_partial` | propext, Classical.choice, Quot.sound |
| C27 | `C27_set_iteration` | propext, Classical.choice, Quot.sound |
| C27 | `C27_sortedSet_refines` | propext, Classical.choice, Quot.sound |
| C28 | `C28_hashMap_refines` | propext, Classical.choice, Quot.sound |
| C28 | `C28_capacity_limit` | propext, Classical.choice, Quot.sound |
| C29 | `C29_resize` | propext, Classical.choice, Quot.sound |
| C29 | `C29_capacity_floor` | propext, Quot.sound |
| C30 | `C30_program_partial` | propext, Quot.sound |
| C30 | `C30_refuted` | propext, Classical.choice, Quot.sound |
| C30 | `C30_never_yields_partial` | propext, Quot.sound |
| C30 | `C30_complete_iff_empty_partial` | propext, Quot.sound |
| C31 | `C31_hashSet_refines` | propext, Classical.choice, Quot.sound |
| C32 | `C32_murmur3` | propext, Classical.choice, Quot.sound |
| C33 | `C33_refuted` | propext, Classical.choice, Quot.sound |
| C33 | `C33_hashableSlice_refuted` | propext, Quot.sound |
| C33 | `C33_int_slices_partial` | propext, Classical.choice, Quot.sound |
| C33 | `C33_hashableSlice_partial` | propext, Quot.sound |
| C33 | `C33_byteSlice` | propext, Classical.choice, Quot.sound |
| C34 | `C34_finds_every_key` | propext, Classical.choice, Quot.sound |
| C35 | `C35_key_mode_exact` | propext, Classical.choice, Quot.sound |
| C35 | `C35_composite_keys` | propext, Classical.choice, Quot.sound |
| C36 | `C36_hash_mode_exact` | propext, Classical.choice, Quot.sound |
| C37 | `C37_necessary_partial` | propext, Classical.choice, Quot.sound |
| C37 | `C37_refuted` | propext, Classical.choice, Quot.sound |
| C37 | `C37_terminates_iff_partial` | propext, Classical.choice, Quot.sound |
| C37 | `C37_one_key_partial` | propext, Quot.sound |
| C37 | `C37_rich_partial` | propext, Classical.choice, Quot.sound |
| C37 | `C37_buckets_partial` | propext, Classical.choice, Quot.sound |
| C37 | `C37_few_keys_partial` | propext, Classical.choice, Quot.sound |
| C37 | `C37_two_keys_partial` | propext, Classical.choice, Quot.sound |
| C37 | `C37_short_partial` | propext, Classical.choice, Quot.sound |
| C37 | `C37_single_refuted` | propext, Classical.choice, Quot.sound |
| C38 | `C38_refuted` | propext, Quot.sound |
| C38 | `C38_nil_key_refuted` | propext, Quot.sound |
| C38 | `C38_hash_mode_partial` | propext, Classical.choice, Quot.sound |
| C38 | `C38_key_mode_partial` | propext, Classical.choice, Quot.sound |
| C38 | `C38_exact_partial` | propext, Classical.choice, Quot.sound |
| C39 | `C39_refuted` | propext, Quot.sound |
| C39 | `C39_hash_mode_partial` | propext, Quot.sound |
| C39 | `C39_key_mode_partial` | propext, Classical.choice, Quot.sound |
| C40 | `C40_no_panic` | propext, Quot.sound |
| C40 | `C40_in_bounds` | propext, Quot.sound |
| C40 | `C40_strict_prefix` | propext, Quot.sound |
| C40 | `C40_truncated_rejected` | propext, Classical.choice, Quot.sound |
| C41 | `C41_empty_panics_partial` | propext, Quot.sound |
| C41 | `C41_refuted` | propext, Quot.sound |
| C42 | `C42_roundtrip` | propext, Classical.choice, Quot.sound |
| C42 | `C42_too_long` | propext, Quot.sound |
| C42 | `C42_nil` | propext, Quot.sound |
| C43 | `C43_roundtrip_iff_partial` | propext, Classical.choice, Quot.sound |
| C43 | `C43_refuted` | propext, Classical.choice, Quot.sound |
| C44 | `C44_no_panic` | propext, Classical.choice, Quot.sound |
| C44 | `C44_consumed` | propext, Classical.choice, Quot.sound |
| C44 | `C44_independent` | propext, Classical.choice, Quot.sound |
| C44 | `C44_accepts_iff` | propext, Classical.choice, Quot.sound |
| C45 | `C45_wellFormed_partial` | propext, Classical.choice, Quot.sound |
| C45 | `C45_same_object_partial` | propext, Classical.choice, Quot.sound |
| C45 | `C45_malformed_partial` | propext, Classical.choice, Quot.sound |
| C45 | `C45_independent_iff_partial` | propext, Classical.choice, Quot.sound |
| C45 | `C45_refuted` | propext, Classical.choice, Quot.sound |
| C46 | `C46_limit_iff` | propext, Quot.sound |
| C46 | `C46_size` | propext, Quot.sound |
| C46 | `C46_wellFormed` | propext, Classical.choice, Quot.sound |
| C47 | `C47_exact_partial` | propext, Classical.choice, Quot.sound |
| C47 | `C47_copy_partial` | propext, Classical.choice, Quot.sound |
| C47 | `C47_refuted` | propext, Classical.choice, Quot.sound |
| C48 | `C48_refuted` | propext, Quot.sound |
| C48 | `C48_delete_panics_partial` | propext, Quot.sound |
| C48 | `C48_list_partial` | propext, Quot.sound |
| C48 | `C48_not_encoded` | propext |
| C48 | `C48_encode` | propext, Quot.sound |
| C48 | `C48_encoded_current` | propext, Quot.sound |
| C49 | `C49_layout` | propext, Quot.sound |
| C50 | `C50_never_decodes_before_partial` | propext, Classical.choice, Quot.sound |
| C50 | `C50_decoded_key_empty_partial` | propext, Classical.choice, Quot.sound |
| C50 | `C50_never_decodes_partial` | propext, Classical.choice, Quot.sound |
| C50 | `C50_refuted` | propext, Classical.choice, Quot.sound |
| C51 | `C51_refuted` | propext, Quot.sound |
| C51 | `C51_panics_iff_partial` | propext, Classical.choice, Quot.sound |
| C51 | `C51_no_panic_partial` | propext, Classical.choice, Quot.sound |
| C52 | `C52_exact` | propext, Classical.choice, Quot.sound |
| C52 | `C52_format` | propext, Classical.choice, Quot.sound |
| C53 | `C53_signature_iff` | propext, Quot.sound |
| C53 | `C53_signature_bytes` | propext, Quot.sound |
| C54 | `C54_encoded_current` | propext, Quot.sound |
| C54 | `C54_fields` | propext, Quot.sound |
| C54 | `C54_encode` | propext, Quot.sound |
| C55 | `C55_refuted` | propext, Quot.sound |
| C55 | `C55_present_partial` | propext, Classical.choice, Quot.sound |
| C55 | `C55_roundtrip_iff_partial` | propext, Classical.choice, Quot.sound |
| C56 | `C56_limit_iff` | propext, Classical.choice, Quot.sound |
| C56 | `C56_size` | propext, Classical.choice, Quot.sound |
| C57 | `C57_ledger_roundtrip` | propext, Classical.choice, Quot.sound |
| C57 | `C57_ledger_order` | propext |
| C58 | `C58_refuted` | propext |
| C58 | `C58_gt_ge_eq_ne_partial` | propext, Classical.choice, Quot.sound |
| C58 | `C58_lt_partial` | propext, Classical.choice, Quot.sound |
| C58 | `C58_le_partial` | propext, Classical.choice, Quot.sound |
| C59 | `C59_never_partial` | propext, Classical.choice, Quot.sound |
| C59 | `C59_refuted` | propext, Classical.choice, Quot.sound |
| C60 | `C60_mixed_errors` | propext, Classical.choice, Quot.sound |
| C61 | `C61_parse_iff` | propext, Classical.choice, Quot.sound |
| C62 | `C62_parse_iff` | propext, Classical.choice, Quot.sound |
| C62 | `C62_accepts_iff` | propext, Classical.choice, Quot.sound |
| C62 | `C62_copy` | propext, Classical.choice, Quot.sound |
| C63 | `C63_encode_spec` | propext, Classical.choice, Quot.sound |
| C63 | `C63_roundtrip` | propext, Classical.choice, Quot.sound |
| C64 | `C64_canonical` | propext, Classical.choice, Quot.sound |
| C65 | `C65_reject_iff` | propext, Classical.choice, Quot.sound |
| C66 | `C66_int64` | propext, Classical.choice, Quot.sound |
| C66 | `C66_int32` | propext, Classical.choice, Quot.sound |
| C66 | `C66_uint32` | propext, Classical.choice, Quot.sound |
| C66 | `C66_decode` | propext, Classical.choice, Quot.sound |
| C67 | `C67_length_and_value` | propext, Classical.choice, Quot.sound |
| C67 | `C67_roundtrip` | propext, Classical.choice, Quot.sound |
| C67 | `C67_bytes_roundtrip` | propext, Classical.choice, Quot.sound |
| C68 | `C68_time_roundtrip` | propext, Classical.choice, Quot.sound |
| C69 | `C69_in_range` | propext, Quot.sound |
| C69 | `C69_onto` | propext, Classical.choice, Quot.sound |
| C69 | `C69_empty_panics` | propext, Classical.choice, Quot.sound |
| C70 | `C70_refuted` | propext, Quot.sound |
| C70 | `C70_in_range_iff_partial` | propext, Classical.choice, Quot.sound |
| C71 | `C71_pub_injective` | propext, Classical.choice, Quot.sound |
| C71 | `C71_priv_injective` | propext, Classical.choice, Quot.sound |
| C71 | `C71_pub_ne_priv` | propext, Classical.choice, Quot.sound |
| C72 | `C72_roundtrip` | propext, Classical.choice, Quot.sound |
| C72 | `C72_succeeds` | propext, Classical.choice, Quot.sound |
| C73 | `C73_crash_order` | propext, Classical.choice, Quot.sound |
| C74 | `C74_accept_iff` | propext, Classical.choice, Quot.sound |
| C75 | `C75_pub_panics_iff_partial` | propext, Classical.choice, Quot.sound |
| C75 | `C75_priv_panics_iff_partial` | propext, Classical.choice, Quot.sound |
| C75 | `C75_refuted` | propext, Classical.choice, Quot.sound |
| C76 | `C76_recovered_partial` | propext, Classical.choice, Quot.sound |
| C76 | `C76_refuted` | propext, Classical.choice, Quot.sound |
| C77 | `C77_aes_pad` | propext, Quot.sound |
| C78 | `C78_behaviour_partial` | propext |
| C78 | `C78_empty_key_partial` | propext, Quot.sound |
| C78 | `C78_refuted` | propext |
| C79 | `C79_always_panics_partial` | propext, Quot.sound |
| C79 | `C79_refuted` | propext, Quot.sound |
| C80 | `C80_always_panics_partial` | propext |
| C80 | `C80_refuted` | propext |
| C81 | `C81_get` | propext, Quot.sound |
| C81 | `C81_loads_iff` | propext, Classical.choice, Quot.sound |
| C82 | `C82_refuted` | propext, Quot.sound |
| C82 | `C82_key_copyConstruct_partial` | propext, Classical.choice, Quot.sound |
| C82 | `C82_mappedKey_copy_partial` | propext, Classical.choice, Quot.sound |
| C83 | `C83_decoded` | propext, Quot.sound |
| C83 | `C83_constructed` | propext, Quot.sound |
| C83 | `C83_constructed_no_panic` | propext, Quot.sound |
| C84 | `C84_refuted` | propext, Quot.sound |
| C84 | `C84_truncated_key_partial` | propext, Classical.choice, Quot.sound |
| C85 | `C85_panics_iff_partial` | propext, Classical.choice, Quot.sound |
| C85 | `C85_refuted` | propext, Quot.sound |
| C86 | `C86_refuted` | propext, Classical.choice, Quot.sound |
| C86 | `C86_proper_names_partial` | propext, Classical.choice, Quot.sound |
| C86 | `C86_exact_partial` | propext, Classical.choice, Quot.sound |
| C86 | `C86_staying_partial` | propext, Classical.choice, Quot.sound |
| C87 | `C87_one_byte_detected` | propext, Classical.choice, Quot.sound |
| C88 | `C88_states_partial` | propext, Classical.choice, Quot.sound |
| C88 | `C88_refuted` | propext, Classical.choice, Quot.sound |
| C89 | `C89_same_key_iff_partial` | propext, Quot.sound |
| C89 | `C89_refuted` | none |
| C90 | `C90_panics_iff_partial` | propext, Classical.choice, Quot.sound |
| C90 | `C90_refuted` | propext, Quot.sound |
| C90 | `C90_long_refuted` | propext, Quot.sound |
| C90 | `C90_no_panic_partial` | propext, Classical.choice, Quot.sound |
| C91 | `C91_copy` | propext, Quot.sound |
| C92 | `C92_inverted_partial` | propext, Quot.sound |
| C92 | `C92_endless_partial` | propext, Quot.sound |
| C92 | `C92_next_partial` | propext, Quot.sound |
| C92 | `C92_loaded_partial` | propext, Quot.sound |
| C92 | `C92_refuted` | none |
| C93 | `C93_copy_empty_partial` | propext, Quot.sound |
| C93 | `C93_copy_fails_partial` | propext, Quot.sound |
| C93 | `C93_refuted` | propext, Quot.sound |
| C94 | `C94_loads_iff` | propext, Classical.choice, Quot.sound |
| C94 | `C94_names` | propext, Classical.choice, Quot.sound |
| C95 | `C95_panics_iff_partial` | propext, Classical.choice, Quot.sound |
| C95 | `C95_refuted` | propext, Classical.choice, Quot.sound |
| C96 | `C96_two_bits_partial` | propext, Classical.choice, Quot.sound |
| C96 | `C96_refuted` | propext, Quot.sound |
| C96 | `C96_header_partial` | propext, Classical.choice, Quot.sound |
| C96 | `C96_index_partial` | propext, Classical.choice, Quot.sound |
| C97 | `C97_records_ignored` | propext, Classical.choice, Quot.sound |
| C97 | `C97_truncated` | propext, Classical.choice, Quot.sound |
| C98 | `C98_detected_partial` | propext, Classical.choice, Quot.sound |
| C98 | `C98_undetected_partial` | propext, Classical.choice, Quot.sound |
| C98 | `C98_refuted` | propext, Quot.sound |
| C99 | `C99_load` | propext, Classical.choice, Quot.sound |
| C99 | `C99_space` | propext, Classical.choice, Quot.sound |
| C99 | `C99_set` | propext, Classical.choice, Quot.sound |
| C100 | `C100_total` | propext, Classical.choice, Quot.sound |
| C101 | `C101_amortised` | propext, Classical.choice, Quot.sound |
| C102 | `C102_value_copy_partial` | propext, Classical.choice, Quot.sound |
| C102 | `C102_record_copy_partial` | propext, Classical.choice, Quot.sound |
| C102 | `C102_refuted` | propext, Quot.sound |
| C103 | `C103_never_partial` | propext, Classical.choice, Quot.sound |
| C103 | `C103_content_partial` | propext, Classical.choice, Quot.sound |
| C103 | `C103_refuted` | propext, Classical.choice, Quot.sound |
| C104 | `C104_decoded` | propext, Classical.choice, Quot.sound |
| C104 | `C104_constructed` | propext, Classical.choice, Quot.sound |
| C104 | `C104_roundtrip` | propext, Classical.choice, Quot.sound |
| C105 | `C105_oneKind_iff_partial` | propext, Classical.choice, Quot.sound |
| C105 | `C105_roundtrip_partial` | propext, Classical.choice, Quot.sound |
| C105 | `C105_refuted` | propext, Classical.choice, Quot.sound |
| C106 | `C106_roundtrip` | propext, Classical.choice, Quot.sound |
| C106 | `C106_decode_iff` | propext, Classical.choice, Quot.sound |
| C106 | `C106_isNil` | propext, Classical.choice, Quot.sound |
| C107 | `C107_encode` | propext, Classical.choice, Quot.sound |
| C107 | `C107_success` | propext, Classical.choice, Quot.sound |
| C107 | `C107_contains_iff` | propext, Classical.choice, Quot.sound |
| C107 | `C107_cycle` | propext, Classical.choice, Quot.sound |
| C108 | `C108_past_partial` | propext, Classical.choice, Quot.sound |
| C108 | `C108_unaffected_partial` | propext, Classical.choice, Quot.sound |
| C108 | `C108_changed_partial` | propext, Classical.choice, Quot.sound |
| C108 | `C108_refuted` | propext, Quot.sound |
| C109 | `C109_scheme_estimate` | propext, Classical.choice, Quot.sound |
| C110 | `C110_refuted` | propext, Quot.sound |
| C110 | `C110_primitive_partial` | propext, Classical.choice, Quot.sound |
| C110 | `C110_array_encoded_partial` | propext, Quot.sound |
| C110 | `C110_appended_partial` | propext |
| C110 | `C110_primitives_partial` | propext, Classical.choice, Quot.sound |
| C110 | `C110_record_partial` | propext, Quot.sound |
| C111 | `C111_wellFormed_partial` | propext, Classical.choice, Quot.sound |
| C111 | `C111_same_object_partial` | propext, Classical.choice, Quot.sound |
| C111 | `C111_malformed_partial` | propext, Classical.choice, Quot.sound |
| C111 | `C111_panics_partial` | propext, Classical.choice, Quot.sound |
| C111 | `C111_independent_iff_partial` | propext, Classical.choice, Quot.sound |
| C111 | `C111_refuted` | propext, Classical.choice, Quot.sound |
| C112 | `C112_panics_iff_partial` | propext, Quot.sound |
| C112 | `C112_refuted` | propext, Quot.sound |
| C112 | `C112_error_partial` | propext, Quot.sound |
| C113 | `C113_value_partial` | propext, Classical.choice, Quot.sound |
| C113 | `C113_record_partial` | propext, Classical.choice, Quot.sound |
| C113 | `C113_refuted` | propext, Quot.sound |
| C114 | `C114_copy` | propext, Classical.choice, Quot.sound |
| C114 | `C114_made` | propext, Classical.choice, Quot.sound |
| C114 | `C114_copy_unaffected` | propext, Classical.choice, Quot.sound |
| C114 | `C114_original_unaffected` | propext, Classical.choice, Quot.sound |
| C115 | `C115_estimate_partial` | propext, Classical.choice, Quot.sound |
| C115 | `C115_decoded_partial` | propext, Classical.choice, Quot.sound |
| C115 | `C115_refuted` | propext, Quot.sound |
| C116 | `C116_append_value` | propext, Quot.sound |
| C116 | `C116_append_record` | propext, Quot.sound |
| C116 | `C116_append_cycle` | propext, Quot.sound |
| C116 | `C116_setters` | propext, Quot.sound |
| C116 | `C116_frame` | propext, Classical.choice, Quot.sound |
| C117 | `C117_value_partial` | propext, Quot.sound |
| C117 | `C117_record_partial` | propext, Quot.sound |
| C117 | `C117_refuted` | propext, Classical.choice, Quot.sound |
| C118 | `C118_refuted` | propext, Quot.sound |
| C118 | `C118_list_partial` | propext, Classical.choice, Quot.sound |
| C118 | `C118_array_partial` | propext, Classical.choice, Quot.sound |
| C118 | `C118_array_new_partial` | propext, Classical.choice, Quot.sound |
| C118 | `C118_record_partial` | propext, Classical.choice, Quot.sound |
| C119 | `C119_buf_iff` | propext, Quot.sound |
| C119 | `C119_not_encoded` | propext, Classical.choice, Quot.sound |
| C120 | `C120_value` | propext, Classical.choice, Quot.sound |
| C120 | `C120_record` | propext, Classical.choice, Quot.sound |
| C120 | `C120_encoded` | propext, Classical.choice, Quot.sound |
| C121 | `C121_value` | propext, Classical.choice, Quot.sound |
| C121 | `C121_record` | propext, Classical.choice, Quot.sound |
| C121 | `C121_roundtrip` | propext, Classical.choice, Quot.sound |
| C122 | `C122_compare` | propext, Classical.choice, Quot.sound |
| C122 | `C122_transitive` | propext, Quot.sound |
| C122 | `C122_equal` | propext, Classical.choice, Quot.sound |
| C123 | `C123_outcome_partial` | propext, Quot.sound |
| C123 | `C123_nil_partial` | propext |
| C123 | `C123_refuted` | propext, Quot.sound |
| C124 | `C124_copy` | propext, Classical.choice, Quot.sound |
| C124 | `C124_copyConstruct` | propext, Classical.choice, Quot.sound |
| C125 | `C125_refuted` | propext, Quot.sound |
| C125 | `C125_key_partial` | propext, Classical.choice, Quot.sound |
| C125 | `C125_keyConstruct_partial` | propext, Classical.choice, Quot.sound |
| C125 | `C125_value_partial` | propext, Classical.choice, Quot.sound |
| C125 | `C125_valueConstruct_partial` | propext, Classical.choice, Quot.sound |
| C125 | `C125_record_partial` | propext, Classical.choice, Quot.sound |
| C125 | `C125_recordConstruct_partial` | propext, Classical.choice, Quot.sound |
| C125 | `C125_scheme_partial` | propext, Classical.choice, Quot.sound |
| C126 | `C126_refuted` | propext, Quot.sound |
| C126 | `C126_encoded_partial` | propext, Classical.choice, Quot.sound |
| C127 | `C127_refuted` | propext, Quot.sound |
| C127 | `C127_key_partial` | propext, Classical.choice, Quot.sound |
| C127 | `C127_value_partial` | propext, Classical.choice, Quot.sound |
| C127 | `C127_record_partial` | propext, Classical.choice, Quot.sound |
| C127 | `C127_simple_partial` | propext, Classical.choice, Quot.sound |
| C127 | `C127_scheme_partial` | propext, Classical.choice, Quot.sound |
| C128 | `C128_maps_independent` | propext, Classical.choice, Quot.sound |
| C129 | `C129_links_survive` | propext, Classical.choice, Quot.sound |
| C129 | `C129_only_comparisons_panic` | propext, Classical.choice, Quot.sound |
| C130 | `C130_twice_refuted` | propext, Classical.choice, Quot.sound |
| C130 | `C130_drain_refuted` | propext, Classical.choice, Quot.sound |
| C130 | `C130_iteration_partial` | propext, Classical.choice, Quot.sound |
| C130 | `C130_update_loop_partial` | propext, Classical.choice, Quot.sound |
| C131 | `C131_bad_keys` | propext, Classical.choice, Quot.sound |
| C131 | `C131_refuted` | propext, Classical.choice, Quot.sound |
| C131 | `C131_all_or_nothing_partial` | propext, Classical.choice, Quot.sound |
| C131 | `C131_only_keys_panic` | propext, Classical.choice, Quot.sound |
| C131 | `C131_fixed_hash_partial` | propext, Classical.choice, Quot.sound |
| C132 | `C132_signatures_verify` | propext, Classical.choice, Quot.sound |
| C133 | `C133_saved_key_partial` | propext, Classical.choice, Quot.sound |
| C133 | `C133_refuted` | propext, Classical.choice, Quot.sound |
| C134 | `C134_altered_partial` | propext, Classical.choice, Quot.sound |
| C134 | `C134_refuted` | propext, Classical.choice, Quot.sound |
| C135 | `C135_covers_partial` | propext, Classical.choice, Quot.sound |
| C135 | `C135_refuted` | propext, Classical.choice, Quot.sound |
| C136 | `C136_signing_ends` | propext, Classical.choice, Quot.sound |
| C137 | `C137_public_files_partial` | propext, Classical.choice, Quot.sound |
| C137 | `C137_refuted` | propext, Classical.choice, Quot.sound |
| C138 | `C138_no_panic_partial` | propext, Classical.choice, Quot.sound |
| C138 | `C138_refuted` | propext, Classical.choice, Quot.sound |
| C139 | `C139_usable_partial` | propext, Classical.choice, Quot.sound |
| C139 | `C139_refuted` | propext, Classical.choice, Quot.sound |
| C139 | `C139_id_partial` | propext, Classical.choice, Quot.sound |
| C139 | `C139_alias_partial` | propext, Classical.choice, Quot.sound |
| C139 | `C139_links_refuted` | propext, Classical.choice, Quot.sound |
| C140 | `C140_refuted` | propext, Classical.choice, Quot.sound |
| C140 | `C140_survive_partial` | propext, Classical.choice, Quot.sound |
| C140 | `C140_any_alias_partial` | propext, Classical.choice, Quot.sound |
| C140 | `C140_one_partial` | propext, Classical.choice, Quot.sound |
| C141 | `C141_consent_partial` | propext, Classical.choice, Quot.sound |
| C141 | `C141_refuted` | propext, Classical.choice, Quot.sound |
| C141 | `C141_any_alias_partial` | propext, Classical.choice, Quot.sound |
| C142 | `C142_refuted` | propext, Classical.choice, Quot.sound |
| C142 | `C142_kept_partial` | propext, Classical.choice, Quot.sound |
| C143 | `C143_refuted` | propext, Classical.choice, Quot.sound |
| C143 | `C143_replaceable_partial` | propext, Classical.choice, Quot.sound |
| C144 | `C144_refuted` | propext, Classical.choice, Quot.sound |
| C144 | `C144_opens_partial` | propext, Classical.choice, Quot.sound |
| C145 | `C145_refuted` | propext, Classical.choice, Quot.sound |
| C145 | `C145_saves_partial` | propext, Classical.choice, Quot.sound |
| C146 | `C146_refuted` | propext, Classical.choice, Quot.sound |
| C146 | `C146_load_partial` | propext, Classical.choice, Quot.sound |
| C146 | `C146_nan_loadFactor` | propext, Classical.choice, Quot.sound |
| C146 | `C146_nan_multiplier` | propext, Classical.choice, Quot.sound |
| C146 | `C146_default` | propext, Classical.choice, Quot.sound |
| C147 | `C147_space` | propext, Classical.choice, Quot.sound |
| C147 | `C147_map` | propext, Classical.choice, Quot.sound |
| C148 | `C148_amortised` | propext, Classical.choice, Quot.sound |
| C149 | `C149_iterators_survive` | propext, Classical.choice, Quot.sound |
| C149 | `C149_new_iterators` | propext, Classical.choice, Quot.sound |
| C150 | `C150_entries_were_put` | propext, Classical.choice, Quot.sound |
| C150 | `C150_refuted` | propext, Classical.choice, Quot.sound |
| C151 | `C151_bounded` | propext, Classical.choice, Quot.sound |
| C151 | `C151_loop_ends` | propext, Classical.choice, Quot.sound |
| C152 | `C152_uniform` | propext, Classical.choice, Quot.sound |
| C152 | `C152_single_key` | propext, Classical.choice, Quot.sound |
| C152 | `C152_bucket` | propext, Classical.choice, Quot.sound |
| C153 | `C153_one_word` | propext, Classical.choice, Quot.sound |
| C153 | `C153_one_byte` | propext, Classical.choice, Quot.sound |
| C153 | `C153_short` | propext, Classical.choice, Quot.sound |
| C154 | `C154_many_partial` | propext, Classical.choice, Quot.sound |
| C154 | `C154_refuted` | propext, Classical.choice, Quot.sound |
| C154 | `C154_keys_partial` | propext, Quot.sound |
| C154 | `C154_flood_partial` | propext, Classical.choice, Quot.sound |
| C155 | `C155_map` | propext, Classical.choice, Quot.sound |
| C155 | `C155_default` | propext, Classical.choice, Quot.sound |
| C156 | `C156_refuted` | propext |
| C156 | `C156_blocked_partial` | propext, Classical.choice, Quot.sound |
| C156 | `C156_unblocked_partial` | propext, Classical.choice, Quot.sound |
| C156 | `C156_fixed_format_partial` | propext, Classical.choice, Quot.sound |
| C156 | `C156_iteration` | propext, Classical.choice, Quot.sound |
| C157 | `C157_hash_partial` | propext, Classical.choice, Quot.sound |
| C157 | `C157_sorted_partial` | propext, Classical.choice, Quot.sound |
| C157 | `C157_refuted` | propext, Classical.choice, Quot.sound |
| C157 | `C157_lost_partial` | propext, Classical.choice, Quot.sound |
| C158 | `C158_open` | propext, Classical.choice, Quot.sound |
| C159 | `C159_twice` | propext, Classical.choice, Quot.sound |
| C159 | `C159_failed` | propext, Quot.sound |
| C159 | `C159_crash_partial` | propext, Classical.choice, Quot.sound |
| C159 | `C159_stale_partial` | propext, Classical.choice, Quot.sound |
| C159 | `C159_refuted` | propext, Quot.sound |
| C159 | `C159_unchanged_refuted` | propext, Quot.sound |
| C160 | `C160_refuted` | propext, Quot.sound |
| C160 | `C160_files_partial` | propext, Quot.sound |
| C160 | `C160_mappings_partial` | propext, Classical.choice, Quot.sound |
| C160 | `C160_leak_partial` | propext, Classical.choice, Quot.sound |
| C161 | `C161_key` | propext, Classical.choice, Quot.sound |
| C161 | `C161_scheme` | propext, Classical.choice, Quot.sound |
| C161 | `C161_value` | propext, Classical.choice, Quot.sound |
| C161 | `C161_record` | propext, Classical.choice, Quot.sound |
| C162 | `C162_refuted` | propext, Quot.sound |
| C162 | `C162_file_refuted` | propext, Classical.choice, Quot.sound |
| C162 | `C162_table_partial` | propext, Classical.choice, Quot.sound |
| C162 | `C162_loaded_partial` | propext, Quot.sound |
| C162 | `C162_hash_partial` | propext, Classical.choice, Quot.sound |
| C162 | `C162_own_partial` | propext, Classical.choice, Quot.sound |
| C162 | `C162_phantom_partial` | propext, Quot.sound |
| C162 | `C162_file_partial` | propext, Classical.choice, Quot.sound |
| C162 | `C162_file_keys_partial` | propext, Classical.choice, Quot.sound |
| C163 | `C163_get_put` | propext, Classical.choice, Quot.sound |
| C163 | `C163_remove` | propext, Classical.choice, Quot.sound |
| C163 | `C163_any_keys` | propext, Classical.choice, Quot.sound |
| C164 | `C164_range` | propext, Classical.choice, Quot.sound |
| C164 | `C164_single` | propext, Classical.choice, Quot.sound |
| C164 | `C164_full` | propext, Classical.choice, Quot.sound |
| C165 | `C165_absent_partial` | propext, Classical.choice, Quot.sound |
| C165 | `C165_nodes_partial` | propext, Classical.choice, Quot.sound |
| C165 | `C165_get_partial` | propext, Classical.choice, Quot.sound |
| C165 | `C165_fails_partial` | propext, Classical.choice, Quot.sound |
| C165 | `C165_refuted` | propext, Quot.sound |
| C166 | `C166_fixed_partial` | propext, Classical.choice, Quot.sound |
| C166 | `C166_refuted` | propext, Quot.sound |
| C167 | `C167_always_panics_partial` | propext, Classical.choice, Quot.sound |
| C167 | `C167_refuted` | propext, Classical.choice, Quot.sound |
| C168 | `C168_copy_partial` | propext, Classical.choice, Quot.sound |
| C168 | `C168_refuted` | propext, Quot.sound |
| C169 | `C169_completes_partial` | propext, Classical.choice, Quot.sound |
| C169 | `C169_injective_partial` | propext, Classical.choice, Quot.sound |
| C169 | `C169_refuted` | propext, Quot.sound |
| C170 | `C170_last_encode_partial` | propext, Quot.sound |
| C170 | `C170_first_partial` | propext, Classical.choice, Quot.sound |
| C170 | `C170_refuted` | propext, Quot.sound |
| C171 | `C171_enough_iff_partial` | propext, Classical.choice, Quot.sound |
| C171 | `C171_small_partial` | propext, Classical.choice, Quot.sound |
| C171 | `C171_refuted` | propext, Quot.sound |
| C172 | `C172_silent_partial` | propext, Quot.sound |
| C172 | `C172_refuted` | propext, Quot.sound |
| C173 | `C173_readable_iff_partial` | propext, Classical.choice, Quot.sound |
| C173 | `C173_refuted` | propext, Quot.sound |
| C174 | `C174_visits` | propext |
| C175 | `C175_descendants_partial` | propext, Classical.choice, Quot.sound |
| C175 | `C175_children_partial` | propext, Classical.choice, Quot.sound |
| C175 | `C175_refuted` | propext |
| C175 | `C175_foreign_refuted` | propext |
| C176 | `C176_stuck_partial` | propext, Quot.sound |
| C176 | `C176_leaf_partial` | propext, Quot.sound |
| C176 | `C176_never_ends_partial` | propext, Quot.sound |
| C176 | `C176_refuted` | propext |
| C177 | `C177_upTo_partial` | propext, Classical.choice, Quot.sound |
| C177 | `C177_never_ends_partial` | propext, Classical.choice, Quot.sound |
| C177 | `C177_missing_partial` | propext, Classical.choice, Quot.sound |
| C177 | `C177_refuted` | propext, Quot.sound |
| C178 | `C178_exact_partial` | propext, Classical.choice, Quot.sound |
| C178 | `C178_start_partial` | propext, Classical.choice, Quot.sound |
| C178 | `C178_missing_partial` | propext, Classical.choice, Quot.sound |
| C178 | `C178_empty_partial` | propext, Quot.sound |
| C178 | `C178_leaf_partial` | propext, Quot.sound |
| C178 | `C178_between_partial` | propext, Classical.choice, Quot.sound |
| C178 | `C178_refuted` | propext, Quot.sound |
| C179 | `C179_total_partial` | propext, Classical.choice, Quot.sound |
| C179 | `C179_read_partial` | propext, Classical.choice, Quot.sound |
| C179 | `C179_ascending_partial` | propext, Classical.choice, Quot.sound |
| C179 | `C179_last_first_partial` | propext, Classical.choice, Quot.sound |
| C179 | `C179_bound_partial` | propext, Classical.choice, Quot.sound |
| C179 | `C179_two_partial` | propext, Classical.choice, Quot.sound |
| C179 | `C179_refuted` | propext, Classical.choice, Quot.sound |
| C180 | `C180_iff_partial` | propext, Classical.choice, Quot.sound |
| C180 | `C180_values_partial` | propext, Classical.choice, Quot.sound |
| C180 | `C180_records_partial` | propext, Classical.choice, Quot.sound |
| C180 | `C180_refuted` | propext, Quot.sound |
| C181 | `C181_lines` | propext, Classical.choice, Quot.sound |
| C182 | `C182_lines` | propext, Classical.choice, Quot.sound |
| C183 | `C183_subKeys_partial` | propext, Classical.choice, Quot.sound |
| C183 | `C183_equal_partial` | propext, Classical.choice, Quot.sound |
| C183 | `C183_refuted` | propext, Classical.choice, Quot.sound |
| C184 | `C184_maps_partial` | propext, Classical.choice, Quot.sound |
| C184 | `C184_keys_partial` | propext, Classical.choice, Quot.sound |
| C184 | `C184_refuted` | propext, Classical.choice, Quot.sound |
| C185 | `C185_lines_partial` | propext, Classical.choice, Quot.sound |
| C185 | `C185_never_partial` | propext, Classical.choice, Quot.sound |
| C185 | `C185_loaded_partial` | propext, Classical.choice, Quot.sound |
| C185 | `C185_refuted` | propext, Classical.choice, Quot.sound |
| C185 | `C185_key_partial` | propext, Classical.choice, Quot.sound |
| C186 | `C186_history` | propext, Quot.sound |
| C187 | `C187_refuted` | propext, Quot.sound |
| C187 | `C187_partial` | propext, Quot.sound |
| C188 | `C188_refuted` | propext |
| C188 | `C188_sound_partial` | propext, Classical.choice, Quot.sound |
| C188 | `C188_nil_partial` | propext |
| C189 | `C189_refuted` | propext, Quot.sound |
| C189 | `C189_partial` | propext, Classical.choice, Quot.sound |
| C189 | `C189_hash_partial` | propext, Classical.choice, Quot.sound |
| C190 | `C190_refuted` | propext |
| C190 | `C190_partial` | propext, Quot.sound |
| C190 | `C190_once` | propext, Quot.sound |
| C191 | `C191_refuted` | propext, Quot.sound |
| C191 | `C191_partial` | propext, Classical.choice, Quot.sound |
| C191 | `C191_values_partial` | propext, Classical.choice, Quot.sound |
| C192 | `C192_encode` | propext, Classical.choice, Quot.sound |
| C192 | `C192_encoded_iff_partial` | propext, Classical.choice, Quot.sound |
| C192 | `C192_partial` | propext, Classical.choice, Quot.sound |
| C192 | `C192_refuted` | propext, Quot.sound |
| C192 | `C192_content` | propext, Classical.choice, Quot.sound |
| C192 | `C192_est` | propext, Classical.choice, Quot.sound |
| C192 | `C192_est_key` | propext, Classical.choice, Quot.sound |
| C192 | `C192_copy` | propext, Classical.choice, Quot.sound |
| C192 | `C192_buf` | propext, Quot.sound |
| C193 | `C193_lookup_partial` | propext, Classical.choice, Quot.sound |
| C193 | `C193_unchanged_iff` | propext, Quot.sound |
| C193 | `C193_yes` | propext, Classical.choice, Quot.sound |
| C193 | `C193_hash_mode` | propext, Classical.choice, Quot.sound |
| C193 | `C193_refuted` | propext, Quot.sound |
| C193 | `C193_encode` | propext, Classical.choice, Quot.sound |
| C193 | `C193_saved_partial` | propext, Classical.choice, Quot.sound |
| C193 | `C193_saved_refuted` | propext, Quot.sound |
| C194 | `C194_loaded_partial` | propext, Quot.sound |
| C194 | `C194_trie_partial` | propext, Quot.sound |
| C194 | `C194_refuted` | propext, Classical.choice, Quot.sound |
| C195 | `C195_history` | propext, Classical.choice, Quot.sound |
| C195 | `C195_copy` | propext, Classical.choice, Quot.sound |
| C196 | `C196_copy_partial` | propext, Classical.choice, Quot.sound |
| C196 | `C196_blocks_partial` | propext, Classical.choice, Quot.sound |
| C196 | `C196_refuted` | propext, Quot.sound |
| C197 | `C197_outside_partial` | propext, Classical.choice, Quot.sound |
| C197 | `C197_now_partial` | propext, Classical.choice, Quot.sound |
| C197 | `C197_kept` | propext, Classical.choice, Quot.sound |
| C197 | `C197_tiles` | propext, Classical.choice, Quot.sound |
| C197 | `C197_late_value_partial` | propext, Classical.choice, Quot.sound |
| C197 | `C197_late_record_partial` | propext, Classical.choice, Quot.sound |
| C197 | `C197_refuted` | propext, Quot.sound |
| C198 | `C198_exact_partial` | propext, Classical.choice, Quot.sound |
| C198 | `C198_unassigned` | propext, Classical.choice, Quot.sound |
| C198 | `C198_set` | propext, Quot.sound |
| C198 | `C198_marked` | propext, Quot.sound |
| C198 | `C198_shared_partial` | propext, Classical.choice, Quot.sound |
| C198 | `C198_decoded` | propext, Classical.choice, Quot.sound |
| C198 | `C198_stale_partial` | propext, Classical.choice, Quot.sound |
| C198 | `C198_refuted` | propext, Quot.sound |
| C199 | `C199_seeds_partial` | propext, Classical.choice, Quot.sound |
| C199 | `C199_refuted` | propext, Classical.choice, Quot.sound |
| C199 | `C199_chance_partial` | propext, Classical.choice, Quot.sound |
| C199 | `C199_fifteenth_partial` | propext, Classical.choice, Quot.sound |
| C199 | `C199_forged_partial` | propext, Classical.choice, Quot.sound |
| C200 | `C200_content_partial` | propext, Classical.choice, Quot.sound |
| C200 | `C200_ends` | propext, Classical.choice, Quot.sound |
| C200 | `C200_alone` | propext, Classical.choice, Quot.sound |
| C200 | `C200_warm` | propext, Classical.choice, Quot.sound |
| C200 | `C200_race_iff_partial` | propext, Classical.choice, Quot.sound |
| C200 | `C200_refuted` | propext, Quot.sound |
| C201 | `C201_order` | propext, Classical.choice, Quot.sound |
| C201 | `C201_blocked_partial` | propext, Classical.choice, Quot.sound |
| C201 | `C201_types_partial` | propext, Classical.choice, Quot.sound |
| C201 | `C201_unblocked_partial` | propext, Classical.choice, Quot.sound |
| C201 | `C201_same_shape_partial` | propext, Classical.choice, Quot.sound |
| C201 | `C201_refuted` | propext |
| C202 | `C202_key_ok_iff_partial` | propext, Classical.choice, Quot.sound |
| C202 | `C202_key_panics_iff_partial` | propext, Classical.choice, Quot.sound |
| C202 | `C202_scheme_ok_iff_partial` | propext, Classical.choice, Quot.sound |
| C202 | `C202_refuted` | propext, Quot.sound |
| C203 | `C203_refuted` | none |
| C203 | `C203_exact_partial` | propext, Quot.sound |
| C204 | `C204_signed` | propext, Quot.sound |
| C204 | `C204_unsigned` | propext, Classical.choice, Quot.sound |
| C205 | `C205_encode_partial` | propext, Quot.sound |
| C205 | `C205_stays_partial` | propext, Quot.sound |
| C205 | `C205_buf_partial` | propext, Quot.sound |
| C205 | `C205_isEncoded_partial` | propext, Quot.sound |
| C205 | `C205_ends` | propext, Quot.sound |
| C205 | `C205_race_partial` | propext, Quot.sound |
| C205 | `C205_race_same_partial` | propext, Classical.choice, Quot.sound |
| C205 | `C205_refuted` | propext, Classical.choice, Quot.sound |
| C206 | `C206_nothing_partial` | propext, Classical.choice, Quot.sound |
| C206 | `C206_empty_partial` | propext, Classical.choice, Quot.sound |
| C206 | `C206_same_type_partial` | propext, Classical.choice, Quot.sound |
| C206 | `C206_other_type_partial` | propext, Classical.choice, Quot.sound |
| C206 | `C206_refuted` | propext, Quot.sound |
| C207 | `C207_refuted` | propext |
| C207 | `C207_exact_partial` | propext, Quot.sound |
| C207 | `C207_answer` | propext |
| C208 | `C208_bounds` | propext, Classical.choice, Quot.sound |
| C208 | `C208_extremes` | propext, Classical.choice, Quot.sound |
| C208 | `C208_decode` | propext, Classical.choice, Quot.sound |
| C208 | `C208_hash` | propext, Classical.choice, Quot.sound |
| C209 | `C209_unsigned` | propext, Classical.choice, Quot.sound |
| C209 | `C209_refuted` | propext |
| C209 | `C209_signed_partial` | propext, Classical.choice, Quot.sound |
| C209 | `C209_times_partial` | propext, Classical.choice, Quot.sound |
| C209 | `C209_map_partial` | propext, Classical.choice, Quot.sound |
| C210 | `C210_varchars` | propext, Classical.choice, Quot.sound |
| C210 | `C210_values` | propext, Classical.choice, Quot.sound |
| C210 | `C210_tables` | propext, Classical.choice, Quot.sound |
| C210 | `C210_refuted` | propext, Quot.sound |
| C210 | `C210_keys_partial` | propext, Classical.choice, Quot.sound |
| C210 | `C210_key_tables_partial` | propext, Classical.choice, Quot.sound |
| C211 | `C211_refuted` | propext, Quot.sound |
| C211 | `C211_decoded_key_refuted` | propext, Quot.sound |
| C211 | `C211_values_partial` | propext, Classical.choice, Quot.sound |
| C211 | `C211_prefix_free` | propext, Classical.choice, Quot.sound |
| C211 | `C211_records_partial` | propext, Classical.choice, Quot.sound |
| C212 | `C212_history` | propext, Classical.choice, Quot.sound |
| C212 | `C212_nil` | propext, Quot.sound |
| C212 | `C212_others` | propext, Classical.choice, Quot.sound |
| C213 | `C213_unmoved` | propext, Quot.sound |
| C213 | `C213_after_panic` | propext, Quot.sound |
| C214 | `C214_exact_partial` | propext, Classical.choice, Quot.sound |
| C214 | `C214_refuted` | propext |
| C214 | `C214_order_refuted` | propext, Classical.choice, Quot.sound |
| C214 | `C214_range_partial` | propext, Classical.choice, Quot.sound |
| C214 | `C214_upTo_partial` | propext, Classical.choice, Quot.sound |
| C215 | `C215_exact_partial` | propext, Classical.choice, Quot.sound |
| C215 | `C215_refuted` | propext |
| C215 | `C215_upTo_partial` | propext, Classical.choice, Quot.sound |
| C216 | `C216_refuted` | propext, Quot.sound |
| C216 | `C216_nothing` | propext, Classical.choice, Quot.sound |
| C216 | `C216_start_partial` | propext, Quot.sound |
| C216 | `C216_end_partial` | propext, Classical.choice, Quot.sound |
| C217 | `C217_refuted` | propext, Quot.sound |
| C217 | `C217_cut_partial` | propext, Classical.choice, Quot.sound |
| C217 | `C217_between_partial` | propext, Classical.choice, Quot.sound |
| C218 | `C218_refuted` | propext, Quot.sound |
| C218 | `C218_order_partial` | propext, Classical.choice, Quot.sound |
| C218 | `C218_same_shape_partial` | propext, Classical.choice, Quot.sound |
| C218 | `C218_map` | propext, Classical.choice, Quot.sound |
| C219 | `C219_lookup_cost` | propext, Classical.choice, Quot.sound |
| C220 | `C220_hash_mode` | propext, Classical.choice, Quot.sound |
| C220 | `C220_key_mode` | propext, Classical.choice, Quot.sound |
| C220 | `C220_any_keys` | propext, Classical.choice, Quot.sound |
| C221 | `C221_lookup_cost` | propext, Classical.choice, Quot.sound |
| C221 | `C221_by_length` | propext, Classical.choice, Quot.sound |
| C222 | `C222_readers` | propext |
| C223 | `C223_share` | propext, Classical.choice, Quot.sound |
| C223 | `C223_fair` | propext, Classical.choice, Quot.sound |
| C223 | `C223_uniform_iff` | propext, Classical.choice, Quot.sound |
| C223 | `C223_seed` | propext, Classical.choice, Quot.sound |
| C223 | `C223_hash` | propext, Classical.choice, Quot.sound |
| C224 | `C224_outside_partial` | propext, Classical.choice, Quot.sound |
| C224 | `C224_quarter_partial` | propext, Classical.choice, Quot.sound |
| C224 | `C224_share_partial` | propext, Classical.choice, Quot.sound |
| C224 | `C224_refuted` | propext, Classical.choice, Quot.sound |
| C225 | `C225_any_alias_partial` | propext, Classical.choice, Quot.sound |
| C225 | `C225_refuted` | propext, Classical.choice, Quot.sound |
| C225 | `C225_usage` | propext, Classical.choice, Quot.sound |
| C225 | `C225_places_partial` | propext, Classical.choice, Quot.sound |
| C225 | `C225_stays_partial` | propext, Classical.choice, Quot.sound |
| C225 | `C225_usable_partial` | propext, Classical.choice, Quot.sound |
| C226 | `C226_refuted` | propext, Classical.choice, Quot.sound |
| C226 | `C226_apart_partial` | propext, Classical.choice, Quot.sound |
| C226 | `C226_conf_partial` | propext, Classical.choice, Quot.sound |
| C227 | `C227_refuted` | propext, Classical.choice, Quot.sound |
| C227 | `C227_loads_exist` | propext, Classical.choice, Quot.sound |
| C227 | `C227_saved_partial` | propext, Classical.choice, Quot.sound |
| C227 | `C227_public_last_partial` | propext, Classical.choice, Quot.sound |
| C227 | `C227_pub_states` | propext, Classical.choice, Quot.sound |
| C227 | `C227_pub_saved` | propext, Classical.choice, Quot.sound |
| C228 | `C228_refuted` | propext, Quot.sound |
| C228 | `C228_loaded_partial` | propext, Classical.choice, Quot.sound |
| C228 | `C228_made` | propext, Quot.sound |
| C228 | `C228_primitive` | propext, Classical.choice, Quot.sound |
| C229 | `C229_nodes_partial` | propext, Classical.choice, Quot.sound |
| C229 | `C229_loads_partial` | propext, Classical.choice, Quot.sound |
| C229 | `C229_refuted` | propext, Classical.choice, Quot.sound |
| C230 | `C230_maps_independent` | propext, Classical.choice, Quot.sound |
| C230 | `C230_default` | propext, Classical.choice, Quot.sound |
| C231 | `C231_links_survive` | propext, Classical.choice, Quot.sound |
| C231 | `C231_returns` | propext, Classical.choice, Quot.sound |
| C232 | `C232_readers` | propext, Quot.sound |
| C232 | `C232_ends` | propext, Quot.sound |
| C233 | `C233_two_bits` | propext, Classical.choice, Quot.sound |
| C233 | `C233_one_bit` | propext, Classical.choice, Quot.sound |
| C233 | `C233_bound` | propext, Classical.choice, Quot.sound |
| C234 | `C234_replaced` | propext, Classical.choice, Quot.sound |
| C234 | `C234_eight` | propext, Quot.sound |
| C234 | `C234_swapped` | propext, Classical.choice, Quot.sound |
| C234 | `C234_inserted` | propext, Classical.choice, Quot.sound |
| C234 | `C234_omitted` | propext, Classical.choice, Quot.sound |
| C234 | `C234_public` | propext, Classical.choice, Quot.sound |
| C234 | `C234_private` | propext, Classical.choice, Quot.sound |
