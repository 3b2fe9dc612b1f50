Axioms of the theorems in MANIFEST.json, as printed by #print axioms (tools/axioms.py).

depends on axioms: [propext, Classical.choice, Quot.sound]:
  C01_unmarshal_total C01_unmarshalNoCopy_total C01_unmarshalString_total C02_standard_json_partial C02_counterexample C02_zerosOK_short C02_unambiguous C02_exact C02_limits C03_accepted_texts_partial C03_counterexample C03_no_trailing_data C04_in_place C04_same_result C04_buffer C04_after_error C04_no_escapes C04_second_try C05_objects_are_maps C06_integers_partial C06_counterexample C06_exact C31_mustGet C31_mustUnmarshalString C31_mustUnmarshalNoCopy C31_mustUnmarshal_partial C45_unmarshalJSON C45_binary C45_heap C45_old_children C19_set_get_partial C19_returns_child C19_counterexample C19_exact C20_frame C20_frame_get_partial C20_counterexample C21_set C21_insert C21_append C21_delete C22_containers C22_last_index C22_created_index C22_scalar_fails C22_counterexample C23_insert C23_insert_ok C24_append C24_append_creates C24_append_not_array C25_delete_iff_get C25_delete_iff_get_slice C25_delete_ok C25_delete_target C28_slice_then_more_partial C28_get_last C28_last_but_one C28_two_more C28_counterexample C29_index_partial C29_kind_mismatch C29_unsigned_wraps C43_get C43_caseless_get C26_object_is_map C26_last_set C26_after_delete C26_untouched C26_array_is_list C26_array_read C27_caseless_get C27_caseless_delete C27_caseless_path C27_caseless_delete_path C27_index_exact C30_number_getters_total_partial C30_other_getters_total C30_number_results C30_accessors C30_getBytes_total C30_getBytes_results C30_panics_iff C30_accessor_panics_iff C30_counterexample C41_bytes C41_set_get_partial C41_set_bytes C41_bytes_exact C41_counterexample C44_parsed_partial C44_parsed_sign_partial C44_counterexample C44_roundtrip_int C44_roundtrip_uint C44_roundtrip_float C44_newFloat_sign C44_parsed_float_sign C44_greater_counterexample C44_zeros C46_no_holes_partial C46_step_exact C46_set_refuses C46_get_total C46_marshal_total C07_int64 C07_uint64 C08_any_string C08_roundtrip C08_literal_partial C08_literal_exact C10_valid_json_partial C10_counterexample C10_counterexample_nan C10_counterexample_omitnull C10_counterexample_number C10_exact C11_escaping_exact C11_default_partial C11_counterexample C11_utf8 C12_counterexample C12_replaced C13_omit_null_partial C13_standard_partial C13_counterexample C13_exact_default C13_exact_listed C13_exact_unordered C13_exact_set_sequence C13_exact_less C14_canonical C14_ascending C15_listed_first_partial C15_canonical_partial C15_empty_counterexample C16_set_sequence_partial C16_range_partial C16_parsed C16_parsed_range_partial C16_counterexample C48_sorted_by_less C48_string_index C48_shared_storage C48_kept_counterexample C49_text_partial C49_panics_iff C49_counterexample C50_len C09_roundtrip_partial C09_parsed C09_accepted C09_exact C09_counterexample C32_equal_iff C32_symmetric C32_transitive C32_reflexive C32_built C32_same C33_comparisons C33_trichotomy C33_negations C33_transitive C34_contains_iff C34_reflexive C34_transitive C34_antisymmetric C34_equal C34_nil_panics C34_go_data C34_go_data_error C51_by_value_partial C51_exact C51_counts C51_integers C51_counterexample C35_results C35_no_panic_partial C35_counterexample C35_counterexample_any C35_counterexample_forever C36_no_sharing C36_requests C38_copy C38_equal C38_independent C38_by_text C39_put C39_put_visible C39_delete_visible C39_window C39_elsewhere C47_exact C47_counterexample C47_step_partial C47_partial C52_trees C52_get C52_put C52_delete C52_sort C52_load C40_partial C40_ignore_omitempty_partial C40_marshal_partial C40_counterexample C40_omitempty_pointer C40_omitempty_map C40_omitempty_array C40_string_slice C40_string_string C40_dash_comma C40_blank_name C40_embedded_named C40_embedded_nil C40_embedded_map C40_embedded_unexported_map C40_dominance C40_conflict C40_nil_marshaler C40_marshaler_omitempty C53_partial C53_counterexample C53_nil_embedded C53_panic C53_exact C53_set_panics C53_nil_iff C54_caseless_counterexample C54_caseless_wrong_result C55_discipline_needed C56_counterexample C57_append_channel C57_counterexample C57_plain C57_set_get_partial C58_set_get_partial C58_float32 C58_insert_get C58_append_get C58_stored C58_counterexample C59_new_object C60_exact C60_value C60_counterexample C60_differences C61_partial C61_exact C61_bits C61_wraps C61_refused C61_counterexample C62_json C62_value C62_places C62_places_e C62_built C63_listing C63_ambiguous C63_type_names C63_type_total C64_any_partial C64_value_partial C64_all_or_nothing C64_decoder_exists C64_counterexample C64_nan_inside C64_too_deep C64_exact C64_exact_any C64_value_exact C65_refines C65_calls C65_for_range C65_partial C65_removes_half C65_range_objects C65_range_by_set C65_range_stops C65_by_set_stops C65_array_any_callback C66_slices_may_be_reused C66_no_copy C66_no_copy_write C66_no_copy_twice C66_copy_shares C67_get C67_get_err C67_typed C67_must_get C67_set C67_delete C67_append C67_append_here C67_insert C67_insert_not_array C67_missing C68_reformat C68_standard C68_rewrite C68_idempotent C68_unchanged C68_escaped_by C69_panics_iff C69_stays C69_programs C69_nil_receiver C69_nil_unmarshalJSON C70_import C70_usable C70_new C70_calls C70_children C71_commute C71_siblings C71_same_place C71_last_wins C71_idempotent C71_set_back C71_set_delete C71_insert_delete C71_append_delete C71_delete_insert C71_apart C72_json_marshal_partial C72_same_text C72_indent C72_errors C72_roundtrip_partial C72_check_exists C72_counterexample C72_exact C72_exact_any C73_exact C73_final C73_truncated C73_listed C73_literals C73_counterexample C74_linear C74_noCopy C74_reads_all C75_counterexample C76_possible C76_default C76_keys C76_less C76_bySet C76_ids_history C76_ids_parsed C76_depends C77_get C77_changes C77_same_program C77_observers C77_typed C77_reparsed C77_same C77_map_order C77_counterexample C78_value C78_marshal C78_indented C78_rewritten C78_rewritten_indented C78_tight C78_quadratic C79_get C79_delete C79_set C79_insert C79_append C79_not_found C79_out_of_range C79_never_not_found C79_set_over C80_wraps C80_says C80_points C80_completes C80_first C80_incomplete C80_short_rune C80_colons_counterexample C80_range_counterexample C81_partial C81_range C81_counterexample C82_int64 C82_uint64 C82_partial C82_counterexample C83_exact C83_partial C83_wrong C83_counterexample C84_exact C84_partial C84_in_memory widened_exists C84_wrong C84_counterexample C85_parsed C85_canonical C85_settled C85_reads C85_caseless C85_text C85_integers C85_counterexample C86_partial C86_most C86_float32 C86_six C86_seven C86_subnormal C86_sixteen C86_wraps C86_counterexample C87_import C87_partial C87_fifteen C87_back C87_counterexample C88_counterexample C88_quadratic C88_partial C88_any C88_rewritten C88_stack C89_text C89_rewritten C90_quadratic C90_counterexample C90_rewritten C91_equal_partial C91_texts_partial C91_any C91_numbers C91_counterexample C91_huge C91_looks_at_all C91_contains C92_partial C92_endless C92_exact C92_cycle C92_never C92_counterexample C92_left_out C93_partial C93_trees C93_true_iff C93_never C93_self C93_copy C93_loop C93_counterexample C93_order C94_sorted C94_counterexample C95_partial C95_tidy C95_worst C95_doubling C95_counterexample C96_places C96_containers C96_roundtrip_partial C96_one_result C96_counterexample C96_null C97_one_object_partial C97_caseless_partial C97_counterexample C97_order_partial C97_order_counterexample C97_array C97_array_nil C97_array_append C98_exact C98_deleted C98_partial C98_bound C98_refill C98_front C98_half C99_partial C99_indexes C99_skipped C100_reuse C100_counterexample C101_partial C101_exact C101_whole C101_text C101_copy_value C101_counterexample C102 C102_indexed C103 C103_stack C103_queue C104_order C104_shared C106_copy C106_copy_print C106_print C106_get C106_parse_get_print C106_parse_paths_print

depends on axioms: [propext, Quot.sound]:
  C31_counterexample C45_marshal C45_strings C24_append_root C28_set C29_index_in_range C43_heap_get C43_heap_caseless_get C43_readers C43_answers C43_rangeArray C43_rangeObjects C30_get_fails C30_getInt_empty_panics C30_int_blank_panics C41_rfc4648 C44_newInt C44_newUint C44_newFloat C46_counterexample C46_append_bad_child C46_uninitialized C08_counterexample C10_no_error_partial C11_options_independent C12_top_level_partial C12_default_error C12_special_iff C12_containers_never_fail C13_prune C18_indent C18_same_error C14_reorder_same C15_empty_is_none C17_last_wins C17_default_first C17_opt_resets C17_swap C17_overridden C17_last_order C42_sort_array C48_less_called_with_path C48_kinds_partial C50_range_objects C50_range_by_set C50_range_array C51_counterexample_special C35_prealloc C37_iter_array C37_iter_objects C37_other_kinds C39_get C40_jsonvalue C40_nil_slice C40_nil_bytes C40_named_bytes C40_nan C53_nil_result C53_nil_element C54_readers C54_marshal C55_rwmutex C43_readers C56_partial C57_set C57_insert C57_append_exact C57_panic C59_other_kinds C59_float32 C62_other_formats C63_describes C63_any_order C63_as_marshalled C64_marshal_error C65_range_ends C65_any_callback C65_member C66_callers_slices C66_unmarshal C66_unmarshal_no_copy C66_write C69_nil_child C75_unclosed C75_partial C79_set_child C87_vertical_tab C89_marshal C90_partial C90_doubling C90_without C91_digits C91_contains_quadratic C91_contains_counterexample C94_partial C94_called_with C96_all_or_nothing C96_checked C97_index_made C98_counterexample C98_replaced C99_missed C99_schedule C99_leak C99_objects C99_objects_fatal C99_counterexample C100_partial C100_late C101_copy C102_same C102_first C103_growth C103_least C104 C104_separate C105 C105_undisturbed C105_model C105_model_paths C105_unmarshal C106 C106_unmarshal C106_parse_print C106_parse_compare C106_parse_change_print C106_parse_set_print C106_parse_sets_print

depends on axioms: [propext]:
  C24_append_root_not_array C28_get C28_insert C28_append C28_delete C29_counterexample C43_get_model C30_other_results C30_bool C42_other_values C42_nil_less C42_nil_receiver C50_other_kinds C50_nil_receiver C33_not_number C34_path C38_observed C55_read_section C65_skips C65_nil_child C65_counterexample C65_by_set_any_callback C89_one C89_first C89_nil C89_equal C97_array_counterexample C104_model

does not depend on any axioms:
  C48_kinds_counterexample C63_string C63_type_named C63_type_nil
