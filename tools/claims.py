claim("C01", "proved", "C01_unmarshal_total C01_unmarshalNoCopy_total C01_unmarshalString_total",
  "All byte inputs; the buffer program with bounds-checked indexing and fuel never panics or runs out of fuel.")
claim("C02", "partial", "C02_standard_json_partial C02_counterexample C02_zerosOK_short C02_unambiguous C02_exact C02_limits",
  "Proved for every RFC 8259 text except those with a non-integer literal whose integer part has a 0 after a prefix divisible by 2^64; the code rejects such literals (counterexample proved). C02_exact says, for every JSON document, exactly when it is read without error.")
claim("C03", "partial", "C03_accepted_texts_partial C03_counterexample C03_no_trailing_data",
  "False as stated: the parser accepts e.g. [,]. Proved instead: the exact accepted language, and that trailing data is never ignored.")
claim("C04", "proved", "C04_in_place C04_same_result C04_buffer C04_after_error C04_no_escapes C04_second_try",
  "Every input, accepted or not. C04_second_try is a consequence to know of: after a failed UnmarshalNoCopy the same slice may parse.")
claim("C05", "proved", "C05_objects_are_maps", "Assumes only that strconv.ParseFloat accepts nothing but Go float syntax (used to name the grammar).")
claim("C06", "partial", "C06_integers_partial C06_counterexample C06_exact",
  "Proved except for 20 digit literals >= 2^64 with residue >= 10^19, which the code accepts and wraps (counterexample proved). C06_exact says exactly which digit texts are accepted and what the getters give.")
claim("C31", "partial", "C31_mustGet C31_mustUnmarshalString C31_mustUnmarshalNoCopy C31_mustUnmarshal_partial C31_counterexample",
  "MustUnmarshal of an empty slice returns nil (counterexample); everything else proved.")
claim("C45", "proved", "C45_unmarshalJSON C45_marshal C45_strings C45_binary C45_heap C45_old_children", "Non-nil receivers (a nil receiver has nothing to set). C45_binary has the hypotheses of C09_roundtrip_partial. C45_heap: the same on any heap, shared values included; C45_old_children: what was below the receiver is kept for its holders.")
claim("C19", "partial", "C19_set_get_partial C19_returns_child C19_counterexample C19_exact",
  "False as stated: an index before the last parameter that lies beyond an existing array appends instead of failing (counterexample). Proved for all other paths; the returned child is always in the tree. C19_exact: the condition is necessary too.")
claim("C20", "partial", "C20_frame C20_frame_get_partial C20_counterexample",
  "C20_frame has no side condition (relative to the location Set reports); the Get form needs the path not to skip beyond an array, as in C19.")
claim("C21", "proved", "C21_set C21_insert C21_append C21_delete", "Exact equality of the tree, ids and caches included. Caseless().Delete is in C27.")
claim("C22", "partial", "C22_containers C22_last_index C22_created_index C22_scalar_fails C22_counterexample",
  "All clauses proved except ErrOutOfRange for an out of range index before the last parameter, which the code does not report (counterexample).")
claim("C23", "proved", "C23_insert C23_insert_ok", "")
claim("C24", "proved", "C24_append C24_append_root C24_append_creates C24_append_not_array C24_append_root_not_array", "")
claim("C25", "proved", "C25_delete_iff_get C25_delete_iff_get_slice C25_delete_ok C25_delete_target", "That keys are distinct in every reachable object is part of C26.")
claim("C28", "partial", "C28_get C28_set C28_insert C28_append C28_delete C28_slice_then_more_partial C28_get_last C28_last_but_one C28_two_more C28_counterexample",
  "The equivalence is proved; the last clause fails for Insert and Delete when the slice is neither first nor last (counterexample): exactly, in the last place but one it then stands for its elements, and further from the end it is an error.")
claim("C29", "partial", "C29_index_partial C29_index_in_range C29_kind_mismatch C29_counterexample C29_unsigned_wraps",
  "Proved for all signed indexes and unsigned ones below 2^63; larger unsigned ones wrap to negative (counterexample).")
claim("C43", "proved", "C43_get C43_caseless_get C43_heap_get C43_heap_caseless_get C43_readers C43_get_model C43_answers C43_rangeArray C43_rangeObjects", "Plain and caseless reads on trees and on any heap. Marshal, Equal, Contains, the comparisons and the Range functions as programs of memory accesses (Model/Threads) that contain no write.")
claim("C26", "proved", "C26_object_is_map C26_last_set C26_after_delete C26_untouched C26_array_is_list C26_array_read", "")
claim("C27", "proved", "C27_caseless_get C27_caseless_delete C27_caseless_path C27_caseless_delete_path C27_index_exact", "Values of any construction history (Built), any permutation of the map order at every step.")
claim("C30", "partial", "C30_number_getters_total_partial C30_other_getters_total C30_number_results C30_other_results C30_get_fails C30_accessors C30_bool C30_getBytes_total C30_getBytes_results C30_panics_iff C30_accessor_panics_iff C30_getInt_empty_panics C30_int_blank_panics C30_counterexample",
  "Number getters panic on a string that is empty after trimming (counterexample); exactly then (C30_panics_iff, C30_accessor_panics_iff: Int() and the like only if the string is not empty); proved for all other values.")
claim("C41", "partial", "C41_bytes C41_rfc4648 C41_set_get_partial C41_set_bytes C41_bytes_exact C41_counterexample",
  "NewBytes/Bytes proved for every byte string, against RFC 4648 on bits. SetBytes then GetBytes inherits the one failure of Set (an index that skips over the end of an array, C19).")
claim("C44", "partial", "C44_parsed_partial C44_parsed_sign_partial C44_newInt C44_newUint C44_newFloat C44_counterexample C44_roundtrip_int C44_roundtrip_uint C44_roundtrip_float C44_newFloat_sign C44_parsed_float_sign C44_greater_counterexample C44_zeros",
  "IsFloat is false for every number made by NewFloat64 (counterexample); proved for parsed numbers and NewInt/NewUint. Sign and GreaterThanInt64Max of NewFloat64 and of literals with a fraction or exponent under the rounding of IEEE 754 (Ieee): true to the float, so that GreaterThanInt64Max holds from 2^63 - 512 on (C44_greater_counterexample) and a negative number next to 0 is not negative; -0 is negative and -0.0 is not (C44_zeros). Outside of the range of uint64 Go does not specify the conversion.")
claim("C46", "partial", "C46_no_holes_partial C46_step_exact C46_set_refuses C46_counterexample C46_append_bad_child C46_get_total C46_marshal_total C46_uninitialized",
  "Append of an empty value leaves a NotExist element (counterexample); proved for all histories whose inserted children are solid.")
claim("C07", "proved", "C07_int64 C07_uint64", "")
claim("C08", "partial", "C08_any_string C08_roundtrip C08_literal_partial C08_counterexample C08_literal_exact",
  "The round trip is proved for every string. The literal is well formed unless the string holds U+000B, which is written raw (counterexample), and exactly then (C08_literal_exact).")
claim("C10", "partial", "C10_valid_json_partial C10_no_error_partial C10_counterexample C10_counterexample_nan C10_counterexample_omitnull C10_counterexample_number C10_exact",
  "False as stated (four counterexamples: raw U+000B, nested NaN, omitted nulls, lenient number literals kept verbatim). Proved for every other value, option list, map order and sort. C10_exact: what is written for a value built by public calls is JSON exactly if it meets JsonOK.")
claim("C11", "partial", "C11_escaping_exact C11_options_independent C11_default_partial C11_counterexample C11_utf8",
  "The escaped form of every string under every option list is determined exactly; the default guarantees hold except for raw U+000B (counterexample).")
claim("C12", "partial", "C12_top_level_partial C12_default_error C12_special_iff C12_containers_never_fail C12_counterexample C12_replaced",
  "Proved at top level; containers never report an error, so a nested NaN is swallowed (counterexample).")
claim("C13", "partial", "C13_omit_null_partial C13_standard_partial C13_prune C13_counterexample C13_exact_default C13_exact_listed C13_exact_unordered C13_exact_set_sequence C13_exact_less",
  "The output decodes with this library to the pruned value; a comma is missing when a null member precedes another one, so standard decoders reject it (counterexample). C13_exact_*: the output is JSON exactly if no member left out stands between two others.")
claim("C18", "proved", "C18_indent C18_same_error", "")
claim("C14", "proved", "C14_canonical C14_ascending C14_reorder_same", "For any sort.Sort that meets its contract (GoodSort).")
claim("C15", "partial", "C15_listed_first_partial C15_canonical_partial C15_empty_is_none C15_empty_counterexample", "Proved for every non-empty sequence; with an empty one the other members are in no order at all (counterexample).")
claim("C16", "partial", "C16_set_sequence_partial C16_range_partial C16_parsed C16_parsed_range_partial C16_counterexample", "Proved for histories with less than 2^32 calls of Set on the object; the 32 bit counter wraps after that (counterexample).")
claim("C17", "proved", "C17_last_wins C17_default_first C17_opt_resets C17_swap C17_overridden C17_last_order", "")
claim("C42", "proved", "C42_sort_array C42_other_values C42_nil_less C42_nil_receiver", "For any sort.Sort that meets its contract (GoodSort).")
claim("C48", "partial", "C48_less_called_with_path C48_sorted_by_less C48_kinds_partial C48_string_index C48_kinds_counterexample C48_shared_storage C48_kept_counterexample", "The path is right at every object, also with paths as slices that share storage (any growth of append); an empty key is reported as an index (counterexample). A path kept after the call may change later.")
claim("C49", "partial", "C49_text_partial C49_panics_iff C49_counterexample", "Panics on any non-empty key unless SetDefaultMarshalOptions was called (counterexample); otherwise the text is proved for paths without an empty key.")
claim("C50", "proved", "C50_range_objects C50_range_by_set C50_range_array C50_other_kinds C50_nil_receiver C50_len", "Callbacks that change the value being iterated: see C65.")
claim("C09", "partial", "C09_roundtrip_partial C09_parsed C09_accepted C09_exact C09_counterexample", "Proved for every value whose number texts the parser takes (in particular everything that was parsed), with any options; NewFloat64f(1e20, 'f', ...) writes an integer that the parser refuses (counterexample). C09_exact: for values of the public API without NaN and infinities it holds exactly if the parser takes every number text and all strings are UTF-8.")
claim("C32", "proved", "C32_equal_iff C32_symmetric C32_transitive C32_reflexive C32_built C32_same", "For every decimal.NewFromString.")
claim("C33", "proved", "C33_comparisons C33_trichotomy C33_negations C33_transitive C33_not_number", "For every decimal.NewFromString; a nil receiver panics.")
claim("C34", "proved", "C34_contains_iff C34_reflexive C34_transitive C34_antisymmetric C34_path C34_equal C34_nil_panics C34_go_data C34_go_data_error", "For a *V as second argument, without nil parts (Contains panics on those), and for plain Go data (as in C40).")
claim("C51", "partial", "C51_by_value_partial C51_exact C51_counts C51_integers C51_counterexample C51_counterexample_special", "Proved for texts with exponents within 32 bits, using the published algorithm of shopspring/decimal v1.4.0. Larger exponents and NaN or Inf count as 0 (counterexamples); C51_exact says what is compared for every pair of texts.")
claim("C35", "partial", "C35_results C35_prealloc C35_no_panic_partial C35_counterexample C35_counterexample_any C35_counterexample_forever", "In every interleaving results and pre-allocation are right. No panic is proved as long as the texts that are no objects or arrays have at most 2 GiB in total; without that bound the predictor overflows to 0 after 2^30-4 calls on null and 2^31-1 on 1, and every later call panics (counterexample).")
claim("C36", "proved", "C36_no_sharing C36_requests", "Every arena size and every text; two allocations by the Go runtime are taken to be different objects.")
claim("C37", "proved", "C37_iter_array C37_iter_objects C37_other_kinds", "Every length and interleaving; the value must not be changed while the goroutine reads it.")
claim("C38", "proved", "C38_copy C38_observed C38_equal C38_independent C38_by_text", "A pointer to a *V, or a V by value, goes through its text instead (C38_by_text, conditions of C09). For every value that is not below itself; deepCopy turns a nil child into a NotExist value, and Equal to the original holds if no nil and no NotExist is stored (nothing is Equal to those).")
claim("C39", "proved", "C39_get C39_put C39_put_visible C39_delete_visible C39_window C39_elsewhere", "Get, Put and the frame on any heap a program can build; the predicted tree of the root for values that are in one place each.")
claim("C47", "partial", "C47_exact C47_counterexample C47_step_partial C47_partial", "False: a value set into itself makes Marshal recurse for ever (counterexample). Marshal returns exactly for values without a cycle below them, and programs that never store a value below itself build only such values, shared or not.")
claim("C52", "proved", "C52_trees C52_get C52_put C52_delete C52_sort C52_load", "Constructors, Unmarshal, Get, Set, Insert, Append, Delete, UnmarshalJSON into a value, SortArray (with any less function that only reads) and Import of a *V.")
claim("C40", "partial", "C40_partial C40_ignore_omitempty_partial C40_marshal_partial C40_jsonvalue C40_counterexample C40_nil_slice C40_nil_bytes C40_named_bytes C40_omitempty_pointer C40_omitempty_map C40_omitempty_array C40_string_slice C40_string_string C40_dash_comma C40_blank_name C40_embedded_named C40_embedded_nil C40_embedded_map C40_embedded_unexported_map C40_dominance C40_conflict C40_nil_marshaler C40_nan C40_marshaler_omitempty", "Proved for plain data (Spec/GoPlain): no nil slices, no named byte slices, omitempty only where it acts on scalars, strings, slices and structs in the same way, string only on booleans and numbers, embedded structs without a tag, no two fields of one name. Outside of it Import deviates from encoding/json: each theorem C40_* after the counterexample is one such case. Floats: the text given by strconv.FormatFloat is a parameter.")
claim("C53", "partial", "C53_partial C53_counterexample C53_nil_result C53_nil_element C53_nil_embedded C53_panic C53_exact C53_set_panics C53_nil_iff", "Proved for sane data (Spec/GoSane): no nil pointer to a json.Marshaler and no nil *V at the top or in a slice, and no embedded unexported type other than a struct, a pointer to one or a simple type. Outside of it Import returns nil, puts nil into arrays (Marshal then panics) or panics itself (counterexamples). For all data: exactly when Import returns a value, returns an error and panics (C53_exact, by the first part looked at that is forbidden or refused), and exactly when it returns nil (C53_nil_iff).")
claim("C54", "proved", "C54_readers C54_marshal C54_caseless_counterexample C54_caseless_wrong_result", "Goroutines are programs of reads and writes of shared memory, interleaved access by access. The caseless theorems show that the restriction documented for Caseless is needed.")
claim("C55", "proved", "C55_rwmutex C55_read_section C55_discipline_needed C43_readers", "Any code under the write lock; under the read lock code that writes nothing (C43_readers shows that the reading calls and everything made of them are such code).")
claim("C56", "partial", "C56_partial C56_counterexample", "False: a plain store and a plain load of the same pointer (counterexample). If the word is in fact loaded and stored atomically, every Marshal uses one complete set of options that was current at some time.")
claim("C57", "partial", "C57_set C57_insert C57_append_exact C57_append_channel C57_counterexample C57_plain C57_panic C57_set_get_partial", "Append ignores the error of Import and appends a NotExist element, which Marshal writes as nothing (counterexample). Everything else is proved for plain Go data (as in C40) and paths that do not skip over the end of an array (C19).")
claim("C58", "partial", "C58_set_get_partial C58_float32 C58_insert_get C58_append_get C58_stored C58_counterexample", "Set: for paths that do not skip over the end of an array in the middle, where it stores the value elsewhere (C19, counterexample). Float32: the value survives the conversion to float64 and back (a hypothesis; it holds for all but signalling NaNs; proved for finite numbers from the rounding of IEEE 754 in C58_float32).")
claim("C59", "proved", "C59_new_object C59_other_kinds C59_float32", "Entries of other kinds are left out without an error. A float32 is stored with the text of the float64 of the same value, unlike Import and SetFloat32.")
claim("C60", "partial", "C60_exact C60_value C60_counterexample C60_differences", "False for zero (0e+00), for exponents -7 to -9 (1e-07) and for the float32 next to 1e-6; the texts agree exactly for all other floats. The digits found by strconv are a parameter with the stated facts; their layout follows strconv's published source, the text of encoding/json follows the ECMAScript rule it documents.")
claim("C61", "partial", "C61_partial C61_exact C61_bits C61_wraps C61_refused C61_counterexample", "Proved for all finite floats that are not written as an integer outside of the range of int64 and uint64: 1e20 is written as an integer that Unmarshal refuses, 3e19 as one that it reads as 11553255926290448384 (counterexamples). C61_exact: the condition is also necessary. C61_bits says which floats these are, for IEEE 754 numbers and the digits strconv finds: all with an absolute value below 2^64 (2^63 for negative ones) or from 1e21 on; -9223372036854775808 is already lost.")
claim("C62", "proved", "C62_json C62_value C62_places C62_places_e C62_built C62_other_formats", "The digits found by strconv are a parameter with the stated facts. NewFloat32f asks for the digits of a float64.")
claim("C63", "proved", "C63_describes C63_any_order C63_string C63_as_marshalled C63_listing C63_ambiguous C63_type_names C63_type_named C63_type_nil C63_type_total", "Values that are not below themselves (on a cycle String does not return, as in C47). Strings and members are not quoted, so that different values may have the same description (C63_ambiguous). ValueType panics on nil.")
claim("C64", "partial", "C64_any_partial C64_value_partial C64_all_or_nothing C64_marshal_error C64_decoder_exists C64_counterexample C64_nan_inside C64_too_deep C64_exact C64_exact_any C64_value_exact", "False for strings with U+000B, which Marshal writes raw (C10) and encoding/json refuses (counterexample). A value that nests deeper than 10000 cannot be exported (C64_too_deep). Exactly which values can be exported: C64_exact (into an interface), C64_value_exact (into a *V): those whose text is JSON (C10_exact), that nest at most 10000 deep and whose numbers are in range. encoding/json is a parameter with stated assumptions (GoodDec: it takes the texts of the byte-level grammar GText and no others), which are shown to be satisfiable.")
claim("C65", "partial", "C65_refines C65_calls C65_for_range C65_partial C65_removes_half C65_skips C65_nil_child C65_counterexample C65_range_objects C65_range_ends C65_range_by_set C65_range_stops C65_by_set_stops C65_any_callback C65_by_set_any_callback C65_array_any_callback C65_member", "False for RangeArray with a callback that removes elements (counterexamples; RangeArray reads the array it is shifting). Proved for RangeArray with callbacks that only append and change elements already seen, or stop after anything else; for loops over ForRangeArr with any body; for objects with callbacks that replace or remove the current member; for objects and callbacks of any other kind C65_any_callback and C65_by_set_any_callback say which members are visited.")
claim("C66", "proved", "C66_slices_may_be_reused C66_no_copy C66_callers_slices C66_unmarshal C66_unmarshal_no_copy C66_write C66_no_copy_write C66_no_copy_twice C66_copy_shares", "Any sequence of calls and of writes by the caller. C66_no_copy_write, C66_no_copy_twice and C66_copy_shares show what happens when the restriction on slices given to UnmarshalNoCopy is not kept. What the map of an object does when the bytes of its keys change is not modelled.")
claim("C67", "proved", "C67_get C67_get_err C67_typed C67_must_get C67_set C67_delete C67_append C67_append_here C67_insert C67_insert_not_array C67_missing", "Where both Inserts fail because the value is not an array the error values differ (typeNotMatch / notArrayValue). The value got must not be a nil pointer or a value of type NotExist for Append and Insert.")
claim("C68", "proved", "C68_reformat C68_standard C68_rewrite C68_idempotent C68_unchanged C68_escaped_by", "For objects with less than 2^32 members in the text, as in C16. Strings that are not valid UTF-8 are read as they are but written with U+FFFD, so that rewriting twice needs valid strings.")
claim("C69", "proved", "C69_panics_iff C69_stays C69_programs C69_nil_receiver C69_nil_unmarshalJSON C69_nil_child", "Callbacks that themselves return and do not change the value; values that are not below themselves (C47) and not used by several goroutines (C31); depth not limited by the stack. C69_nil_child shows that a nil pointer inside makes Marshal panic.")
claim("C70", "proved", "C70_import C70_usable C70_new C70_calls C70_children", "What happens with the excepted data is shown in C53.")
claim("C71", "proved", "C71_commute C71_siblings C71_same_place C71_last_wins C71_idempotent C71_set_back C71_set_delete C71_insert_delete C71_append_delete C71_delete_insert C71_apart",
      "Contents means `Same` (Spec/Order.lean): the order of setting is not restored by setting back. Cases outside the hypotheses are shown beside the theorems.")
claim("C72", "partial", "C72_json_marshal_partial C72_same_text C72_indent C72_errors C72_roundtrip_partial C72_check_exists C72_counterexample C72_exact C72_exact_any", "False for strings with U+000B (counterexample) and for values that nest deeper than 10000 (second half of C72_json_marshal_partial). Proved for the values of C10 (round trip: of C09). encoding/json is specified in Spec/StdJson after its source, its syntax check is a parameter with the assumption GoodCheck (it takes exactly the texts of the byte-level grammar GText that nest at most 10000 deep), shown to be satisfiable. Exactly which values json.Marshal takes: C72_exact.")
claim("C73", "partial", "C73_exact C73_final C73_truncated C73_listed C73_literals C73_counterexample", "False for null and numbers: `nulx` is reported as ErrNotValidBoolValue and ErrNotValidNumberValue is never reported (C73_counterexample, C73_listed). Otherwise proved: C73_exact gives the error for every text. Unclosed strings and bad escapes have errors without a constant.")
claim("C74", "proved", "C74_linear C74_noCopy C74_reads_all", "Counted are byte accesses (Model/Work says which); append, map assignment (beyond hashing the key) and allocation are taken to be constant, as they are amortised, and strconv.ParseFloat to be linear.")
claim("C75", "partial", "C75_counterexample C75_unclosed C75_partial", "False: nesting is not limited (counterexample: n brackets, closed or not, make n nested calls). Proved: never more nested calls than opening brackets in the text.")
claim("C76", "proved", "C76_possible C76_default C76_keys C76_less C76_bySet C76_ids_history C76_ids_parsed C76_depends", "C76_possible for the values of C10 (others are not written as JSON). The order of visiting is modelled by the stored order of a shuffled value: same members with the same numbers, at any depth in another order. C76_depends is the simplest case of two texts.")
claim("C77", "proved", "C77_get C77_changes C77_same_program C77_observers C77_typed C77_reparsed C77_same C77_map_order C77_counterexample", "Children are values (aliasing between arguments and the tree is C39 and C52); nil and NotExist children are never Equal and are therefore excluded for Equal, but not for C77_same. C77_counterexample shows what may differ: IsFloat and the text of 1 and 1.0, a caseless lookup with several candidates.")
claim("C78", "proved", "C78_value C78_marshal C78_indented C78_rewritten C78_rewritten_indented C78_tight C78_quadratic", "Bytes of the value and of its text; memory taken by Go (headers, maps, spare capacity) is not counted. NaN and the infinities have no text of their own and are written with up to as many bytes as the options say; they do not come from Unmarshal.")
claim("C79", "proved", "C79_get C79_delete C79_set C79_set_child C79_insert C79_append C79_not_found C79_out_of_range C79_never_not_found C79_set_over", "Exact, as inductive relations (Spec/PathErr), for paths without slices among the parameters (C28 reduces those) and receivers that are not nil. That an index beyond the end in the middle of a path of Set is no error is the deviation of C22.")
claim("C80", "proved", "C80_wraps C80_says C80_points C80_completes C80_first C80_incomplete C80_short_rune C80_colons_counterexample C80_range_counterexample", "A message is modelled as its kind and the numbers and bytes put into it; the wording is in the comments. What is odd is part of the statement or shown: the two numbers of `expect at least` are exchanged (C80_short_rune), two colons give the position of the key (C80_colons_counterexample), a second UTF-16 unit is reported by showing the first, a long negative number with a leading zero is said to be too large (C80_range_counterexample).")
claim("C81", "partial", "C81_partial C81_range C81_counterexample", "False for integers from 2^64 on that the parser accepts: they wrap (C06; counterexample 30000000000000000000). Proved for all others, under the documented rounding of strconv.ParseFloat and of Go's conversions (Ieee, Spec/Ieee; ieeeEnv_ok shows that it can be met). C81_range: which literals are accepted.")
claim("C82", "partial", "C82_int64 C82_uint64 C82_partial C82_counterexample", "False for integers that are not float64 numbers: 9007199254740993.0 (counterexample). C82_int64 and C82_uint64: true exactly if the number is written as an integer or is a float64; in particular up to 2^53 (C82_partial). Beyond the bounds given Go's conversion is implementation defined.")
claim("C83", "partial", "C83_exact C83_partial C83_wrong C83_counterexample", "False: the number is rounded twice. 7.038531e-26 is read as the float32 with the bits 15ae43fe, the nearest one is 15ae43fd (C83_wrong). C83_exact: exactly when this happens. Integers from 2^64 on as in C81.")
claim("C84", "partial", "C84_exact C84_partial C84_in_memory widened_exists C84_wrong C84_counterexample", "False: the float32 with the bits 15ae43fd comes back as 15ae43fe (C84_wrong), and integers from 2^64 to 1e21 (negative ones from 2^63) are lost as in C61. C84_exact: exactly for which float32 numbers it holds. C84_partial: all integers below 2^53.")
claim("C85", "proved", "C85_parsed C85_canonical C85_settled C85_reads C85_caseless C85_text C85_integers C85_counterexample", "C85_parsed with C85_reads, C85_caseless and C85_text is the claim for documents, C85_settled for all values. Values of NewInt64 and NewUint64 survive even the first round trip (C85_integers), NewFloat64(1.5) does not: IsFloat is false before and true after (C85_counterexample).")
claim("C86", "partial", "C86_partial C86_most C86_float32 C86_six C86_seven C86_subnormal C86_sixteen C86_wraps C86_counterexample", "C86_partial: the claim for numbers that are 0 or at least 2^-1022, integers below 2^64. Below 2^-1022 it is false (C86_subnormal: 4.9e-324 becomes 5e-324), and for integers that wrap (C86_wraps). 15 cannot be 16 (C86_sixteen); what survives can be written with 17 digits (C86_most). C86_six is the second half, for numbers that are 0 or between 2^-126 and 3.40282e38: though the number is rounded twice (C83), Float32 is the nearest float32 for six digits (continued fractions, all exponents checked by the kernel); seven may be too many (C86_seven).")
claim("C87", "partial", "C87_import C87_partial C87_fifteen C87_back C87_counterexample C87_vertical_tab", "C87_partial: what Export and Import give is Equal to the value if and only if each number in it is the one that NewFloat64 writes for the nearest float64; C87_fifteen: so it is for numbers with at most 15 digits that are 0 or at least 2^-1022. 16 digits may be too many (C87_counterexample). C87_back: the way from data to data, C87_import its first half without conditions on strings. Strings with U+000B cannot be exported (C87_vertical_tab, see C64), nor can values that nest deeper than 10000. The hypotheses are those of C64.")
claim("C88", "partial", "C88_counterexample C88_quadratic C88_partial C88_any C88_rewritten C88_stack", "False with OptIndent and an empty indentation: writeIndent goes through a loop as deep as the line although it writes nothing (n brackets: 4n + 2 bytes, n*n + 5n + 2 steps). Proved for all other options: at most two steps for each byte and one for each member left out, and at least one for each byte; with an empty indentation the nesting comes in as a factor; 13 steps for each byte of a text that is rewritten on one line. append is taken to be constant, as it is amortised; options that order members are left out.")
claim("C89", "partial", "C89_one C89_text C89_first C89_nil C89_equal C89_marshal C89_rewritten", "All of it but one point: for the empty text Unmarshal returns nil, on which each question panics (C89_text, C89_nil; UnmarshalNoCopy and UnmarshalString return a value of no kind). C89_marshal: numbers whose text begins with a digit or a sign; Inf and NaN have no text and may be written as null or a string (C14).")
claim("C90", "partial", "C90_quadratic C90_counterexample C90_partial C90_doubling C90_without C90_rewritten", "False: below a path whose array is full, append copies the whole path for each element, also for elements that are scalars, on which the less function is never called. n nulls nested n deep are 9n bytes and more than n*n pointers, however append grows (C90_quadratic). Proved: at most the room of the longest path for each element and member, which is the square of the length of the text if append doubles (C90_rewritten); nothing at all without a less function (C90_without). The room of arrays is a lower bound of the time; the calls of the less function are not counted.")
claim("C91", "partial", "C91_equal_partial C91_texts_partial C91_any C91_numbers C91_digits C91_counterexample C91_huge C91_looks_at_all C91_contains C91_contains_quadratic C91_contains_counterexample", "False: two numbers are compared as integers with all the zeros their exponents stand for. `1e-99999` and `1`, nine bytes, are compared as integers of up to 100000 digits (C91_counterexample, with strconv as IEEE 754 says); `1e-2147483647`, which is 0 to strconv, takes 2147483648 digits (C91_huge). Proved: the factor is the largest exponent plus five (C91_equal_partial, C91_texts_partial), so five if there is none, and never above 2^31 + 5 (C91_any); exactly how many digits are compared (C91_digits). Contains tries every place for an array in an array: no more than the product of the sizes (C91_contains), and no linear bound holds (C91_contains_counterexample). Digits are counted, not the time big.Int takes to multiply.")
claim("C92", "partial", "C92_partial C92_endless C92_exact C92_cycle C92_never C92_counterexample C92_left_out", "False: a pointer to itself, a slice or map that contains itself and a ring of structs are followed for ever (C92_never, C92_counterexample); encoding/json reports an error for these. Proved: exactly where following the data ends, Import returns a value when nothing in the data is refused (C92_exact), and then it gives what it gives for the tree the data unfold to (C92_partial), so that C40 and C53 speak about data with shared pointers too; among finitely many values that means that nothing that is looked at leads back to itself (C92_cycle); a ring closed by a field tagged `-` does no harm (C92_left_out). A `*V` and the results of MarshalJSON and MarshalText are leaves here; for cycles among `*V` see C47.")
claim("C93", "partial", "C93_partial C93_trees C93_true_iff C93_never C93_self C93_copy C93_loop C93_counterexample C93_order", "False: `v.Set(v).At(\"a\")` and then `v.Equal(v)` or Contains(v, v) (C93_loop, C93_counterexample); for two such values that differ, whether Equal returns can depend on the order of map iteration (C93_order). Proved: one of the two free of cycles is enough for both to return (C93_partial); if both are, the answers are those of C32 and C34 (C93_trees); exactly when the answer is true (C93_true_iff); values that look alike and contain themselves never compare (C93_never, C93_self); a copy is made exactly of values that do not contain themselves (C93_copy). Contains without a path, with a `*V` as second argument.")
claim("C94", "partial", "C94_partial C94_called_with C94_sorted C94_counterexample", "False: for an object that is an element of an array, `Parent` is the array and not the object (C94_counterexample). Proved: the claim for values without objects in arrays (C94_partial); for all values, exactly what `Parent` is: the object itself below an object, the array below an array, none at the top (C94_called_with); and the members stand in the order of the less function called with that very parent (C94_sorted).")
claim("C95", "partial", "C95_partial C95_tidy C95_worst C95_doubling C95_counterexample", "False: Append and Set store the pointer, and Marshal and Equal follow it from each place. 3n + 1 calls of NewArray and Append make n + 1 arrays that are written with 5 * 2^n - 3 bytes, and Equal of the value with itself takes 2^(n+1) - 1 calls (C95_doubling, C95_counterexample). Proved: the claim for values whose parts are in one place each (C95_partial), so for every program that stores each value once at most (C95_tidy); for all programs it is no worse than 2 to the power of the memory in use (C95_worst).")
claim("C96", "partial", "C96_places C96_containers C96_all_or_nothing C96_roundtrip_partial C96_checked C96_one_result C96_counterexample C96_null", "False: the methods have pointer receivers and V has no exported field, so a V that cannot be addressed (in a map, or in a struct or an array that is passed itself) is written as {} whatever it holds, without an error (C96_places, C96_counterexample); and null in a *V comes back as a nil pointer (C96_null). Proved: what stands at each place (C96_places); one failing value leaves no text at all (C96_all_or_nothing); the round trip where each V is addressable, with nil for a pointer to null (C96_roundtrip_partial); json.Unmarshal has one result (C96_one_result). The types of encoding/json around the values are modelled after its published source.")
claim("C97", "partial", "C97_one_object_partial C97_caseless_partial C97_index_made C97_counterexample C97_order_partial C97_order_counterexample C97_array C97_array_counterexample C97_array_nil C97_array_append", "False in three ways. The index of lower-case keys is per variable if it was not made before the assignment: a caseless Get then misses keys set through the other copy (C97_counterexample). The counter of set order is per variable: a key set last may come first (C97_order_counterexample). An array is neither shared nor copied: after a deletion through v, w shows one element twice (C97_array_counterexample) or a nil pointer (C97_array_nil), and elements appended through one are overwritten by the other (C97_array_append). Proved: exact Get, Set and Delete act on one object in all programs, and caseless calls never find anything wrong (C97_one_object_partial); caseless calls are complete when the index is made before copying (C97_caseless_partial, C97_index_made); the order is right when one variable does all Sets (C97_order_partial); exactly what every array operation does to the other variables (C97_array).")
claim("C98", "partial", "C98_counterexample C98_exact C98_deleted C98_replaced C98_partial C98_bound C98_refill C98_front C98_half", "False: deleteInArr moves the later elements down and does not clear the cell that the last one came from, so an element that is deleted later stays there (two elements, Delete(0) twice: C98_counterexample). C98_exact: what is kept after any history. C98_deleted: a removed element is kept exactly if an earlier deletion had left a pointer to it. Proved as stated for arrays of which only the last element is ever deleted (C98_partial). At most one pointer for each deletion is kept (C98_bound), all are let go when the array is filled again or grows (C98_refill); a queue keeps its last element only (C98_front), deleting from both ends by turns keeps half of the array (C98_half).")
claim("C99", "partial", "C99_partial C99_indexes C99_missed C99_skipped C99_schedule C99_leak C99_objects C99_objects_fatal C99_counterexample", "False as stated (C99_counterexample): the goroutine evaluates v.children only when it runs and reads the cells of the backing array one by one. For every array: a Delete right after the call can make the caller miss the first element (C99_missed); deleting the first element on receiving it can skip the second and deliver the last twice (C99_skipped), or not, depending on the schedule (C99_schedule); an Append right after the call can leave the goroutine blocked for good (C99_leak). For every object: a change can end the program even after the last member was received (C99_objects_fatal). Proved: a caller that, until it has seen the end, only appends and changes elements it has already received gets exactly the elements of the moment of the call, and the goroutine never blocks (C99_partial); any changes after the first element leave the indexes and the goroutine's end as they should be (C99_indexes); objects may be changed after the end of the channel (C99_objects). Missing: torn reads of a slice header under a data race; memory is sequentially consistent in the model.")
claim("C100", "partial", "C100_partial C100_late C100_reuse C100_counterexample", "False as stated (C100_counterexample): option.go:318 and 327 keep the slice itself, and the order is read from it in each Marshal (C100_reuse: the default order changes although the defaults were set once). Proved for programs that leave a slice alone once they have made an option with it (C100_partial). For all programs exactly: each Marshal gives what it would give if its options, and those of the last SetDefaultMarshalOptions, were made again just before it (C100_late). Slices that overlap in part are not modelled.")
claim("C101", "partial", "C101_partial C101_exact C101_whole C101_text C101_copy C101_copy_value C101_counterexample", "False as stated (C101_counterexample): numbers, arrays and objects are elements of one slice, so a pointer to one keeps all. Proved for strings, booleans and null, and for inputs too short for an arena (C101_partial). With an arena exactly: a value keeps what is inside it, and the whole document as soon as it or something inside it is in the arena (C101_exact); if the arena was large enough every number, array or object keeps the whole document (C101_whole). The text is kept exactly by strings, numbers, objects with members and what keeps one of these (C101_text). A copy made with Import frees the arena but not the text (C101_copy; C101_copy_value: it is that copy). Trusted: Go's collector keeps a block as a whole and frees what nothing points to; stale values replaced by a repeated key are not counted.")
claim("C102", "proved", "C102 C102_same C102_first C102_indexed", "Steps are map accesses, turns of a range and calls of strings.ToLower. C102: at most ten for each call and five for each member at the start. C102_same: the counted histories are exactly those of C26 and C27. C102_first: one call alone is not bounded (the first caseless one goes through all members); C102_indexed: after it every call takes at most ten steps. Not modelled: Go's work inside one access; a range over a map from which many keys were deleted may walk over the room they left.")
claim("C103", "proved", "C103 C103_growth C103_stack C103_least C103_queue", "C103_growth: the growth of Go's slices (runtime.growslice) is as the theorem asks, whatever size class it is rounded up to. C103_least: what lies behind the place is written in any case, so this part of the bound cannot be smaller. C103_queue: taking n elements one by one from the front writes exactly n(n+1)/2 elements. Counted are elements written by assignments, copy and append; not the clearing of new arrays by the allocator.")
claim("C104", "proved", "C104 C104_separate C104_order C104_model C104_shared", "C104_model: the calls as sequences of memory accesses have the effect of the heap model. C104_shared: two different arrays that have one object in common are not enough for this; there is a data race. New values are made at addresses that belong to the goroutine from the start, since with one allocator for all the address of a new V would depend on the interleaving and the states be the same only up to renaming. Set.At and Append with paths that create containers are not among the programs as single calls; the calls they consist of are.")
claim("C105", "proved", "C105 C105_undisturbed C105_model C105_model_paths C105_unmarshal", "C105_model: the calls as sequences of memory accesses have the effect of the heap model. For the results of the goroutines see C106.")
claim("C106", "proved", "C106 C106_unmarshal C106_parse_print C106_copy C106_copy_print C106_print C106_get C106_parse_get_print C106_parse_compare C106_parse_change_print C106_parse_set_print C106_parse_sets_print C106_parse_paths_print", "C106 is the general rule: a property of the result that follows, for all choices of addresses, from the state of what the goroutine is given holds of the result in every interleaving, and of the result alone. The other theorems are its cases for Unmarshal, deep copy, Marshal, Get, Equal and Contains, and for any number of calls of Set, Insert, Append and Delete on the document, with new documents and at most one parameter each, or of Set, Insert, Append and Delete with new documents and any paths, containers being made on the way by Set and Append, between Unmarshal and Marshal.")
