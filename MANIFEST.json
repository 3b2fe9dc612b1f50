{
 "claims": [
  {
   "property": "C01",
   "status": "proved",
   "theorems": [
    "JV.C01_unmarshal_total",
    "JV.C01_unmarshalNoCopy_total",
    "JV.C01_unmarshalString_total"
   ],
   "note": "All byte inputs; the buffer program with bounds-checked indexing and fuel never panics or runs out of fuel."
  },
  {
   "property": "C02",
   "status": "partial",
   "theorems": [
    "JV.C02_standard_json_partial",
    "JV.C02_counterexample",
    "JV.C02_zerosOK_short",
    "JV.C02_unambiguous",
    "JV.C02_exact",
    "JV.C02_limits"
   ],
   "note": "Proved for every RFC 8259 text except those with a non-integer literal whose integer part has a 0 after a prefix divisible by 2^64; the code rejects such literals (counterexample proved). C02_exact says, for every JSON document, exactly when it is read without error."
  },
  {
   "property": "C03",
   "status": "partial",
   "theorems": [
    "JV.C03_accepted_texts_partial",
    "JV.C03_counterexample",
    "JV.C03_no_trailing_data"
   ],
   "note": "False as stated: the parser accepts e.g. [,]. Proved instead: the exact accepted language, and that trailing data is never ignored."
  },
  {
   "property": "C04",
   "status": "proved",
   "theorems": [
    "JV.C04_in_place",
    "JV.C04_same_result",
    "JV.C04_buffer",
    "JV.C04_after_error",
    "JV.C04_no_escapes",
    "JV.C04_second_try"
   ],
   "note": "Every input, accepted or not. C04_second_try is a consequence to know of: after a failed UnmarshalNoCopy the same slice may parse."
  },
  {
   "property": "C05",
   "status": "proved",
   "theorems": [
    "JV.C05_objects_are_maps"
   ],
   "note": "Assumes only that strconv.ParseFloat accepts nothing but Go float syntax (used to name the grammar)."
  },
  {
   "property": "C06",
   "status": "partial",
   "theorems": [
    "JV.C06_integers_partial",
    "JV.C06_counterexample",
    "JV.C06_exact"
   ],
   "note": "Proved except for 20 digit literals >= 2^64 with residue >= 10^19, which the code accepts and wraps (counterexample proved). C06_exact says exactly which digit texts are accepted and what the getters give."
  },
  {
   "property": "C31",
   "status": "partial",
   "theorems": [
    "JV.C31_mustGet",
    "JV.C31_mustUnmarshalString",
    "JV.C31_mustUnmarshalNoCopy",
    "JV.C31_mustUnmarshal_partial",
    "JV.C31_counterexample"
   ],
   "note": "MustUnmarshal of an empty slice returns nil (counterexample); everything else proved."
  },
  {
   "property": "C45",
   "status": "proved",
   "theorems": [
    "JV.C45_unmarshalJSON",
    "JV.C45_marshal",
    "JV.C45_strings",
    "JV.C45_binary",
    "JV.C45_heap",
    "JV.C45_old_children"
   ],
   "note": "Non-nil receivers (a nil receiver has nothing to set). C45_binary has the hypotheses of C09_roundtrip_partial. C45_heap: the same on any heap, shared values included; C45_old_children: what was below the receiver is kept for its holders."
  },
  {
   "property": "C19",
   "status": "partial",
   "theorems": [
    "JV.C19_set_get_partial",
    "JV.C19_returns_child",
    "JV.C19_counterexample",
    "JV.C19_exact"
   ],
   "note": "False as stated: an index before the last parameter that lies beyond an existing array appends instead of failing (counterexample). Proved for all other paths; the returned child is always in the tree. C19_exact: the condition is necessary too."
  },
  {
   "property": "C20",
   "status": "partial",
   "theorems": [
    "JV.C20_frame",
    "JV.C20_frame_get_partial",
    "JV.C20_counterexample"
   ],
   "note": "C20_frame has no side condition (relative to the location Set reports); the Get form needs the path not to skip beyond an array, as in C19."
  },
  {
   "property": "C21",
   "status": "proved",
   "theorems": [
    "JV.C21_set",
    "JV.C21_insert",
    "JV.C21_append",
    "JV.C21_delete"
   ],
   "note": "Exact equality of the tree, ids and caches included. Caseless().Delete is in C27."
  },
  {
   "property": "C22",
   "status": "partial",
   "theorems": [
    "JV.C22_containers",
    "JV.C22_last_index",
    "JV.C22_created_index",
    "JV.C22_scalar_fails",
    "JV.C22_counterexample"
   ],
   "note": "All clauses proved except ErrOutOfRange for an out of range index before the last parameter, which the code does not report (counterexample)."
  },
  {
   "property": "C23",
   "status": "proved",
   "theorems": [
    "JV.C23_insert",
    "JV.C23_insert_ok"
   ],
   "note": ""
  },
  {
   "property": "C24",
   "status": "proved",
   "theorems": [
    "JV.C24_append",
    "JV.C24_append_root",
    "JV.C24_append_creates",
    "JV.C24_append_not_array",
    "JV.C24_append_root_not_array"
   ],
   "note": ""
  },
  {
   "property": "C25",
   "status": "proved",
   "theorems": [
    "JV.C25_delete_iff_get",
    "JV.C25_delete_iff_get_slice",
    "JV.C25_delete_ok",
    "JV.C25_delete_target"
   ],
   "note": "That keys are distinct in every reachable object is part of C26."
  },
  {
   "property": "C28",
   "status": "partial",
   "theorems": [
    "JV.C28_get",
    "JV.C28_set",
    "JV.C28_insert",
    "JV.C28_append",
    "JV.C28_delete",
    "JV.C28_slice_then_more_partial",
    "JV.C28_get_last",
    "JV.C28_last_but_one",
    "JV.C28_two_more",
    "JV.C28_counterexample"
   ],
   "note": "The equivalence is proved; the last clause fails for Insert and Delete when the slice is neither first nor last (counterexample): exactly, in the last place but one it then stands for its elements, and further from the end it is an error."
  },
  {
   "property": "C29",
   "status": "partial",
   "theorems": [
    "JV.C29_index_partial",
    "JV.C29_index_in_range",
    "JV.C29_kind_mismatch",
    "JV.C29_counterexample",
    "JV.C29_unsigned_wraps"
   ],
   "note": "Proved for all signed indexes and unsigned ones below 2^63; larger unsigned ones wrap to negative (counterexample)."
  },
  {
   "property": "C43",
   "status": "proved",
   "theorems": [
    "JV.C43_get",
    "JV.C43_caseless_get",
    "JV.C43_heap_get",
    "JV.C43_heap_caseless_get",
    "JV.C43_readers",
    "JV.C43_get_model",
    "JV.C43_answers",
    "JV.C43_rangeArray",
    "JV.C43_rangeObjects"
   ],
   "note": "Plain and caseless reads on trees and on any heap. Marshal, Equal, Contains, the comparisons and the Range functions as programs of memory accesses (Model/Threads) that contain no write."
  },
  {
   "property": "C26",
   "status": "proved",
   "theorems": [
    "JV.C26_object_is_map",
    "JV.C26_last_set",
    "JV.C26_after_delete",
    "JV.C26_untouched",
    "JV.C26_array_is_list",
    "JV.C26_array_read"
   ],
   "note": ""
  },
  {
   "property": "C27",
   "status": "proved",
   "theorems": [
    "JV.C27_caseless_get",
    "JV.C27_caseless_delete",
    "JV.C27_caseless_path",
    "JV.C27_caseless_delete_path",
    "JV.C27_index_exact"
   ],
   "note": "Values of any construction history (Built), any permutation of the map order at every step."
  },
  {
   "property": "C30",
   "status": "partial",
   "theorems": [
    "JV.C30_number_getters_total_partial",
    "JV.C30_other_getters_total",
    "JV.C30_number_results",
    "JV.C30_other_results",
    "JV.C30_get_fails",
    "JV.C30_accessors",
    "JV.C30_bool",
    "JV.C30_getBytes_total",
    "JV.C30_getBytes_results",
    "JV.C30_panics_iff",
    "JV.C30_accessor_panics_iff",
    "JV.C30_getInt_empty_panics",
    "JV.C30_int_blank_panics",
    "JV.C30_counterexample"
   ],
   "note": "Number getters panic on a string that is empty after trimming (counterexample); exactly then (C30_panics_iff, C30_accessor_panics_iff: Int() and the like only if the string is not empty); proved for all other values."
  },
  {
   "property": "C41",
   "status": "partial",
   "theorems": [
    "JV.C41_bytes",
    "JV.C41_rfc4648",
    "JV.C41_set_get_partial",
    "JV.C41_set_bytes",
    "JV.C41_bytes_exact",
    "JV.C41_counterexample"
   ],
   "note": "NewBytes/Bytes proved for every byte string, against RFC 4648 on bits. SetBytes then GetBytes inherits the one failure of Set (an index that skips over the end of an array, C19)."
  },
  {
   "property": "C44",
   "status": "partial",
   "theorems": [
    "JV.C44_parsed_partial",
    "JV.C44_parsed_sign_partial",
    "JV.C44_newInt",
    "JV.C44_newUint",
    "JV.C44_newFloat",
    "JV.C44_counterexample",
    "JV.C44_roundtrip_int",
    "JV.C44_roundtrip_uint",
    "JV.C44_roundtrip_float",
    "JV.C44_newFloat_sign",
    "JV.C44_parsed_float_sign",
    "JV.C44_greater_counterexample",
    "JV.C44_zeros"
   ],
   "note": "IsFloat is false for every number made by NewFloat64 (counterexample); proved for parsed numbers and NewInt/NewUint. Sign and GreaterThanInt64Max of NewFloat64 and of literals with a fraction or exponent under the rounding of IEEE 754 (Ieee): true to the float, so that GreaterThanInt64Max holds from 2^63 - 512 on (C44_greater_counterexample) and a negative number next to 0 is not negative; -0 is negative and -0.0 is not (C44_zeros). Outside of the range of uint64 Go does not specify the conversion."
  },
  {
   "property": "C46",
   "status": "partial",
   "theorems": [
    "JV.C46_no_holes_partial",
    "JV.C46_step_exact",
    "JV.C46_set_refuses",
    "JV.C46_counterexample",
    "JV.C46_append_bad_child",
    "JV.C46_get_total",
    "JV.C46_marshal_total",
    "JV.C46_uninitialized"
   ],
   "note": "Append of an empty value leaves a NotExist element (counterexample); proved for all histories whose inserted children are solid."
  },
  {
   "property": "C07",
   "status": "proved",
   "theorems": [
    "JV.C07_int64",
    "JV.C07_uint64"
   ],
   "note": ""
  },
  {
   "property": "C08",
   "status": "partial",
   "theorems": [
    "JV.C08_any_string",
    "JV.C08_roundtrip",
    "JV.C08_literal_partial",
    "JV.C08_counterexample",
    "JV.C08_literal_exact"
   ],
   "note": "The round trip is proved for every string. The literal is well formed unless the string holds U+000B, which is written raw (counterexample), and exactly then (C08_literal_exact)."
  },
  {
   "property": "C10",
   "status": "partial",
   "theorems": [
    "JV.C10_valid_json_partial",
    "JV.C10_no_error_partial",
    "JV.C10_counterexample",
    "JV.C10_counterexample_nan",
    "JV.C10_counterexample_omitnull",
    "JV.C10_counterexample_number",
    "JV.C10_exact"
   ],
   "note": "False as stated (four counterexamples: raw U+000B, nested NaN, omitted nulls, lenient number literals kept verbatim). Proved for every other value, option list, map order and sort. C10_exact: what is written for a value built by public calls is JSON exactly if it meets JsonOK."
  },
  {
   "property": "C11",
   "status": "partial",
   "theorems": [
    "JV.C11_escaping_exact",
    "JV.C11_options_independent",
    "JV.C11_default_partial",
    "JV.C11_counterexample",
    "JV.C11_utf8"
   ],
   "note": "The escaped form of every string under every option list is determined exactly; the default guarantees hold except for raw U+000B (counterexample)."
  },
  {
   "property": "C12",
   "status": "partial",
   "theorems": [
    "JV.C12_top_level_partial",
    "JV.C12_default_error",
    "JV.C12_special_iff",
    "JV.C12_containers_never_fail",
    "JV.C12_counterexample",
    "JV.C12_replaced"
   ],
   "note": "Proved at top level; containers never report an error, so a nested NaN is swallowed (counterexample)."
  },
  {
   "property": "C13",
   "status": "partial",
   "theorems": [
    "JV.C13_omit_null_partial",
    "JV.C13_standard_partial",
    "JV.C13_prune",
    "JV.C13_counterexample",
    "JV.C13_exact_default",
    "JV.C13_exact_listed",
    "JV.C13_exact_unordered",
    "JV.C13_exact_set_sequence",
    "JV.C13_exact_less"
   ],
   "note": "The output decodes with this library to the pruned value; a comma is missing when a null member precedes another one, so standard decoders reject it (counterexample). C13_exact_*: the output is JSON exactly if no member left out stands between two others."
  },
  {
   "property": "C18",
   "status": "proved",
   "theorems": [
    "JV.C18_indent",
    "JV.C18_same_error"
   ],
   "note": ""
  },
  {
   "property": "C14",
   "status": "proved",
   "theorems": [
    "JV.C14_canonical",
    "JV.C14_ascending",
    "JV.C14_reorder_same"
   ],
   "note": "For any sort.Sort that meets its contract (GoodSort)."
  },
  {
   "property": "C15",
   "status": "partial",
   "theorems": [
    "JV.C15_listed_first_partial",
    "JV.C15_canonical_partial",
    "JV.C15_empty_is_none",
    "JV.C15_empty_counterexample"
   ],
   "note": "Proved for every non-empty sequence; with an empty one the other members are in no order at all (counterexample)."
  },
  {
   "property": "C16",
   "status": "partial",
   "theorems": [
    "JV.C16_set_sequence_partial",
    "JV.C16_range_partial",
    "JV.C16_parsed",
    "JV.C16_parsed_range_partial",
    "JV.C16_counterexample"
   ],
   "note": "Proved for histories with less than 2^32 calls of Set on the object; the 32 bit counter wraps after that (counterexample)."
  },
  {
   "property": "C17",
   "status": "proved",
   "theorems": [
    "JV.C17_last_wins",
    "JV.C17_default_first",
    "JV.C17_opt_resets",
    "JV.C17_swap",
    "JV.C17_overridden",
    "JV.C17_last_order"
   ],
   "note": ""
  },
  {
   "property": "C42",
   "status": "proved",
   "theorems": [
    "JV.C42_sort_array",
    "JV.C42_other_values",
    "JV.C42_nil_less",
    "JV.C42_nil_receiver"
   ],
   "note": "For any sort.Sort that meets its contract (GoodSort)."
  },
  {
   "property": "C48",
   "status": "partial",
   "theorems": [
    "JV.C48_less_called_with_path",
    "JV.C48_sorted_by_less",
    "JV.C48_kinds_partial",
    "JV.C48_string_index",
    "JV.C48_kinds_counterexample",
    "JV.C48_shared_storage",
    "JV.C48_kept_counterexample"
   ],
   "note": "The path is right at every object, also with paths as slices that share storage (any growth of append); an empty key is reported as an index (counterexample). A path kept after the call may change later."
  },
  {
   "property": "C49",
   "status": "partial",
   "theorems": [
    "JV.C49_text_partial",
    "JV.C49_panics_iff",
    "JV.C49_counterexample"
   ],
   "note": "Panics on any non-empty key unless SetDefaultMarshalOptions was called (counterexample); otherwise the text is proved for paths without an empty key."
  },
  {
   "property": "C50",
   "status": "proved",
   "theorems": [
    "JV.C50_range_objects",
    "JV.C50_range_by_set",
    "JV.C50_range_array",
    "JV.C50_other_kinds",
    "JV.C50_nil_receiver",
    "JV.C50_len"
   ],
   "note": "Callbacks that change the value being iterated: see C65."
  },
  {
   "property": "C09",
   "status": "partial",
   "theorems": [
    "JV.C09_roundtrip_partial",
    "JV.C09_parsed",
    "JV.C09_accepted",
    "JV.C09_exact",
    "JV.C09_counterexample"
   ],
   "note": "Proved for every value whose number texts the parser takes (in particular everything that was parsed), with any options; NewFloat64f(1e20, 'f', ...) writes an integer that the parser refuses (counterexample). C09_exact: for values of the public API without NaN and infinities it holds exactly if the parser takes every number text and all strings are UTF-8."
  },
  {
   "property": "C32",
   "status": "proved",
   "theorems": [
    "JV.C32_equal_iff",
    "JV.C32_symmetric",
    "JV.C32_transitive",
    "JV.C32_reflexive",
    "JV.C32_built",
    "JV.C32_same"
   ],
   "note": "For every decimal.NewFromString."
  },
  {
   "property": "C33",
   "status": "proved",
   "theorems": [
    "JV.C33_comparisons",
    "JV.C33_trichotomy",
    "JV.C33_negations",
    "JV.C33_transitive",
    "JV.C33_not_number"
   ],
   "note": "For every decimal.NewFromString; a nil receiver panics."
  },
  {
   "property": "C34",
   "status": "proved",
   "theorems": [
    "JV.C34_contains_iff",
    "JV.C34_reflexive",
    "JV.C34_transitive",
    "JV.C34_antisymmetric",
    "JV.C34_path",
    "JV.C34_equal",
    "JV.C34_nil_panics",
    "JV.C34_go_data",
    "JV.C34_go_data_error"
   ],
   "note": "For a *V as second argument, without nil parts (Contains panics on those), and for plain Go data (as in C40)."
  },
  {
   "property": "C51",
   "status": "partial",
   "theorems": [
    "JV.C51_by_value_partial",
    "JV.C51_exact",
    "JV.C51_counts",
    "JV.C51_integers",
    "JV.C51_counterexample",
    "JV.C51_counterexample_special"
   ],
   "note": "Proved for texts with exponents within 32 bits, using the published algorithm of shopspring/decimal v1.4.0. Larger exponents and NaN or Inf count as 0 (counterexamples); C51_exact says what is compared for every pair of texts."
  },
  {
   "property": "C35",
   "status": "partial",
   "theorems": [
    "JV.C35_results",
    "JV.C35_prealloc",
    "JV.C35_no_panic_partial",
    "JV.C35_counterexample",
    "JV.C35_counterexample_any",
    "JV.C35_counterexample_forever"
   ],
   "note": "In every interleaving results and pre-allocation are right. No panic is proved as long as the texts that are no objects or arrays have at most 2 GiB in total; without that bound the predictor overflows to 0 after 2^30-4 calls on null and 2^31-1 on 1, and every later call panics (counterexample)."
  },
  {
   "property": "C36",
   "status": "proved",
   "theorems": [
    "JV.C36_no_sharing",
    "JV.C36_requests"
   ],
   "note": "Every arena size and every text; two allocations by the Go runtime are taken to be different objects."
  },
  {
   "property": "C37",
   "status": "proved",
   "theorems": [
    "JV.C37_iter_array",
    "JV.C37_iter_objects",
    "JV.C37_other_kinds"
   ],
   "note": "Every length and interleaving; the value must not be changed while the goroutine reads it."
  },
  {
   "property": "C38",
   "status": "proved",
   "theorems": [
    "JV.C38_copy",
    "JV.C38_observed",
    "JV.C38_equal",
    "JV.C38_independent",
    "JV.C38_by_text"
   ],
   "note": "A pointer to a *V, or a V by value, goes through its text instead (C38_by_text, conditions of C09). For every value that is not below itself; deepCopy turns a nil child into a NotExist value, and Equal to the original holds if no nil and no NotExist is stored (nothing is Equal to those)."
  },
  {
   "property": "C39",
   "status": "proved",
   "theorems": [
    "JV.C39_get",
    "JV.C39_put",
    "JV.C39_put_visible",
    "JV.C39_delete_visible",
    "JV.C39_window",
    "JV.C39_elsewhere"
   ],
   "note": "Get, Put and the frame on any heap a program can build; the predicted tree of the root for values that are in one place each."
  },
  {
   "property": "C47",
   "status": "partial",
   "theorems": [
    "JV.C47_exact",
    "JV.C47_counterexample",
    "JV.C47_step_partial",
    "JV.C47_partial"
   ],
   "note": "False: a value set into itself makes Marshal recurse for ever (counterexample). Marshal returns exactly for values without a cycle below them, and programs that never store a value below itself build only such values, shared or not."
  },
  {
   "property": "C52",
   "status": "proved",
   "theorems": [
    "JV.C52_trees",
    "JV.C52_get",
    "JV.C52_put",
    "JV.C52_delete",
    "JV.C52_sort",
    "JV.C52_load"
   ],
   "note": "Constructors, Unmarshal, Get, Set, Insert, Append, Delete, UnmarshalJSON into a value, SortArray (with any less function that only reads) and Import of a *V."
  },
  {
   "property": "C40",
   "status": "partial",
   "theorems": [
    "JV.C40_partial",
    "JV.C40_ignore_omitempty_partial",
    "JV.C40_marshal_partial",
    "JV.C40_jsonvalue",
    "JV.C40_counterexample",
    "JV.C40_nil_slice",
    "JV.C40_nil_bytes",
    "JV.C40_named_bytes",
    "JV.C40_omitempty_pointer",
    "JV.C40_omitempty_map",
    "JV.C40_omitempty_array",
    "JV.C40_string_slice",
    "JV.C40_string_string",
    "JV.C40_dash_comma",
    "JV.C40_blank_name",
    "JV.C40_embedded_named",
    "JV.C40_embedded_nil",
    "JV.C40_embedded_map",
    "JV.C40_embedded_unexported_map",
    "JV.C40_dominance",
    "JV.C40_conflict",
    "JV.C40_nil_marshaler",
    "JV.C40_nan",
    "JV.C40_marshaler_omitempty"
   ],
   "note": "Proved for plain data (Spec/GoPlain): no nil slices, no named byte slices, omitempty only where it acts on scalars, strings, slices and structs in the same way, string only on booleans and numbers, embedded structs without a tag, no two fields of one name. Outside of it Import deviates from encoding/json: each theorem C40_* after the counterexample is one such case. Floats: the text given by strconv.FormatFloat is a parameter."
  },
  {
   "property": "C53",
   "status": "partial",
   "theorems": [
    "JV.C53_partial",
    "JV.C53_counterexample",
    "JV.C53_nil_result",
    "JV.C53_nil_element",
    "JV.C53_nil_embedded",
    "JV.C53_panic",
    "JV.C53_exact",
    "JV.C53_set_panics",
    "JV.C53_nil_iff"
   ],
   "note": "Proved for sane data (Spec/GoSane): no nil pointer to a json.Marshaler and no nil *V at the top or in a slice, and no embedded unexported type other than a struct, a pointer to one or a simple type. Outside of it Import returns nil, puts nil into arrays (Marshal then panics) or panics itself (counterexamples). For all data: exactly when Import returns a value, returns an error and panics (C53_exact, by the first part looked at that is forbidden or refused), and exactly when it returns nil (C53_nil_iff)."
  },
  {
   "property": "C54",
   "status": "proved",
   "theorems": [
    "JV.C54_readers",
    "JV.C54_marshal",
    "JV.C54_caseless_counterexample",
    "JV.C54_caseless_wrong_result"
   ],
   "note": "Goroutines are programs of reads and writes of shared memory, interleaved access by access. The caseless theorems show that the restriction documented for Caseless is needed."
  },
  {
   "property": "C55",
   "status": "proved",
   "theorems": [
    "JV.C55_rwmutex",
    "JV.C55_read_section",
    "JV.C55_discipline_needed",
    "JV.C43_readers"
   ],
   "note": "Any code under the write lock; under the read lock code that writes nothing (C43_readers shows that the reading calls and everything made of them are such code)."
  },
  {
   "property": "C56",
   "status": "partial",
   "theorems": [
    "JV.C56_partial",
    "JV.C56_counterexample"
   ],
   "note": "False: a plain store and a plain load of the same pointer (counterexample). If the word is in fact loaded and stored atomically, every Marshal uses one complete set of options that was current at some time."
  },
  {
   "property": "C57",
   "status": "partial",
   "theorems": [
    "JV.C57_set",
    "JV.C57_insert",
    "JV.C57_append_exact",
    "JV.C57_append_channel",
    "JV.C57_counterexample",
    "JV.C57_plain",
    "JV.C57_panic",
    "JV.C57_set_get_partial"
   ],
   "note": "Append ignores the error of Import and appends a NotExist element, which Marshal writes as nothing (counterexample). Everything else is proved for plain Go data (as in C40) and paths that do not skip over the end of an array (C19)."
  },
  {
   "property": "C58",
   "status": "partial",
   "theorems": [
    "JV.C58_set_get_partial",
    "JV.C58_float32",
    "JV.C58_insert_get",
    "JV.C58_append_get",
    "JV.C58_stored",
    "JV.C58_counterexample"
   ],
   "note": "Set: for paths that do not skip over the end of an array in the middle, where it stores the value elsewhere (C19, counterexample). Float32: the value survives the conversion to float64 and back (a hypothesis; it holds for all but signalling NaNs; proved for finite numbers from the rounding of IEEE 754 in C58_float32)."
  },
  {
   "property": "C59",
   "status": "proved",
   "theorems": [
    "JV.C59_new_object",
    "JV.C59_other_kinds",
    "JV.C59_float32"
   ],
   "note": "Entries of other kinds are left out without an error. A float32 is stored with the text of the float64 of the same value, unlike Import and SetFloat32."
  },
  {
   "property": "C60",
   "status": "partial",
   "theorems": [
    "JV.C60_exact",
    "JV.C60_value",
    "JV.C60_counterexample",
    "JV.C60_differences"
   ],
   "note": "False for zero (0e+00), for exponents -7 to -9 (1e-07) and for the float32 next to 1e-6; the texts agree exactly for all other floats. The digits found by strconv are a parameter with the stated facts; their layout follows strconv's published source, the text of encoding/json follows the ECMAScript rule it documents."
  },
  {
   "property": "C61",
   "status": "partial",
   "theorems": [
    "JV.C61_partial",
    "JV.C61_exact",
    "JV.C61_bits",
    "JV.C61_wraps",
    "JV.C61_refused",
    "JV.C61_counterexample"
   ],
   "note": "Proved for all finite floats that are not written as an integer outside of the range of int64 and uint64: 1e20 is written as an integer that Unmarshal refuses, 3e19 as one that it reads as 11553255926290448384 (counterexamples). C61_exact: the condition is also necessary. C61_bits says which floats these are, for IEEE 754 numbers and the digits strconv finds: all with an absolute value below 2^64 (2^63 for negative ones) or from 1e21 on; -9223372036854775808 is already lost."
  },
  {
   "property": "C62",
   "status": "proved",
   "theorems": [
    "JV.C62_json",
    "JV.C62_value",
    "JV.C62_places",
    "JV.C62_places_e",
    "JV.C62_built",
    "JV.C62_other_formats"
   ],
   "note": "The digits found by strconv are a parameter with the stated facts. NewFloat32f asks for the digits of a float64."
  },
  {
   "property": "C63",
   "status": "proved",
   "theorems": [
    "JV.C63_describes",
    "JV.C63_any_order",
    "JV.C63_string",
    "JV.C63_as_marshalled",
    "JV.C63_listing",
    "JV.C63_ambiguous",
    "JV.C63_type_names",
    "JV.C63_type_named",
    "JV.C63_type_nil",
    "JV.C63_type_total"
   ],
   "note": "Values that are not below themselves (on a cycle String does not return, as in C47). Strings and members are not quoted, so that different values may have the same description (C63_ambiguous). ValueType panics on nil."
  },
  {
   "property": "C64",
   "status": "partial",
   "theorems": [
    "JV.C64_any_partial",
    "JV.C64_value_partial",
    "JV.C64_all_or_nothing",
    "JV.C64_marshal_error",
    "JV.C64_decoder_exists",
    "JV.C64_counterexample",
    "JV.C64_nan_inside",
    "JV.C64_too_deep",
    "JV.C64_exact",
    "JV.C64_exact_any",
    "JV.C64_value_exact"
   ],
   "note": "False for strings with U+000B, which Marshal writes raw (C10) and encoding/json refuses (counterexample). A value that nests deeper than 10000 cannot be exported (C64_too_deep). Exactly which values can be exported: C64_exact (into an interface), C64_value_exact (into a *V): those whose text is JSON (C10_exact), that nest at most 10000 deep and whose numbers are in range. encoding/json is a parameter with stated assumptions (GoodDec: it takes the texts of the byte-level grammar GText and no others), which are shown to be satisfiable."
  },
  {
   "property": "C65",
   "status": "partial",
   "theorems": [
    "JV.C65_refines",
    "JV.C65_calls",
    "JV.C65_for_range",
    "JV.C65_partial",
    "JV.C65_removes_half",
    "JV.C65_skips",
    "JV.C65_nil_child",
    "JV.C65_counterexample",
    "JV.C65_range_objects",
    "JV.C65_range_ends",
    "JV.C65_range_by_set",
    "JV.C65_range_stops",
    "JV.C65_by_set_stops",
    "JV.C65_any_callback",
    "JV.C65_by_set_any_callback",
    "JV.C65_array_any_callback",
    "JV.C65_member"
   ],
   "note": "False for RangeArray with a callback that removes elements (counterexamples; RangeArray reads the array it is shifting). Proved for RangeArray with callbacks that only append and change elements already seen, or stop after anything else; for loops over ForRangeArr with any body; for objects with callbacks that replace or remove the current member; for objects and callbacks of any other kind C65_any_callback and C65_by_set_any_callback say which members are visited."
  },
  {
   "property": "C66",
   "status": "proved",
   "theorems": [
    "JV.C66_slices_may_be_reused",
    "JV.C66_no_copy",
    "JV.C66_callers_slices",
    "JV.C66_unmarshal",
    "JV.C66_unmarshal_no_copy",
    "JV.C66_write",
    "JV.C66_no_copy_write",
    "JV.C66_no_copy_twice",
    "JV.C66_copy_shares"
   ],
   "note": "Any sequence of calls and of writes by the caller. C66_no_copy_write, C66_no_copy_twice and C66_copy_shares show what happens when the restriction on slices given to UnmarshalNoCopy is not kept. What the map of an object does when the bytes of its keys change is not modelled."
  },
  {
   "property": "C67",
   "status": "proved",
   "theorems": [
    "JV.C67_get",
    "JV.C67_get_err",
    "JV.C67_typed",
    "JV.C67_must_get",
    "JV.C67_set",
    "JV.C67_delete",
    "JV.C67_append",
    "JV.C67_append_here",
    "JV.C67_insert",
    "JV.C67_insert_not_array",
    "JV.C67_missing"
   ],
   "note": "Where both Inserts fail because the value is not an array the error values differ (typeNotMatch / notArrayValue). The value got must not be a nil pointer or a value of type NotExist for Append and Insert."
  },
  {
   "property": "C68",
   "status": "proved",
   "theorems": [
    "JV.C68_reformat",
    "JV.C68_standard",
    "JV.C68_rewrite",
    "JV.C68_idempotent",
    "JV.C68_unchanged",
    "JV.C68_escaped_by"
   ],
   "note": "For objects with less than 2^32 members in the text, as in C16. Strings that are not valid UTF-8 are read as they are but written with U+FFFD, so that rewriting twice needs valid strings."
  },
  {
   "property": "C69",
   "status": "proved",
   "theorems": [
    "JV.C69_panics_iff",
    "JV.C69_stays",
    "JV.C69_programs",
    "JV.C69_nil_receiver",
    "JV.C69_nil_unmarshalJSON",
    "JV.C69_nil_child"
   ],
   "note": "Callbacks that themselves return and do not change the value; values that are not below themselves (C47) and not used by several goroutines (C31); depth not limited by the stack. C69_nil_child shows that a nil pointer inside makes Marshal panic."
  },
  {
   "property": "C70",
   "status": "proved",
   "theorems": [
    "JV.C70_import",
    "JV.C70_usable",
    "JV.C70_new",
    "JV.C70_calls",
    "JV.C70_children"
   ],
   "note": "What happens with the excepted data is shown in C53."
  },
  {
   "property": "C71",
   "status": "proved",
   "theorems": [
    "JV.C71_commute",
    "JV.C71_siblings",
    "JV.C71_same_place",
    "JV.C71_last_wins",
    "JV.C71_idempotent",
    "JV.C71_set_back",
    "JV.C71_set_delete",
    "JV.C71_insert_delete",
    "JV.C71_append_delete",
    "JV.C71_delete_insert",
    "JV.C71_apart"
   ],
   "note": "Contents means `Same` (Spec/Order.lean): the order of setting is not restored by setting back. Cases outside the hypotheses are shown beside the theorems."
  },
  {
   "property": "C72",
   "status": "partial",
   "theorems": [
    "JV.C72_json_marshal_partial",
    "JV.C72_same_text",
    "JV.C72_indent",
    "JV.C72_errors",
    "JV.C72_roundtrip_partial",
    "JV.C72_check_exists",
    "JV.C72_counterexample",
    "JV.C72_exact",
    "JV.C72_exact_any"
   ],
   "note": "False for strings with U+000B (counterexample) and for values that nest deeper than 10000 (second half of C72_json_marshal_partial). Proved for the values of C10 (round trip: of C09). encoding/json is specified in Spec/StdJson after its source, its syntax check is a parameter with the assumption GoodCheck (it takes exactly the texts of the byte-level grammar GText that nest at most 10000 deep), shown to be satisfiable. Exactly which values json.Marshal takes: C72_exact."
  },
  {
   "property": "C73",
   "status": "partial",
   "theorems": [
    "JV.C73_exact",
    "JV.C73_final",
    "JV.C73_truncated",
    "JV.C73_listed",
    "JV.C73_literals",
    "JV.C73_counterexample"
   ],
   "note": "False for null and numbers: `nulx` is reported as ErrNotValidBoolValue and ErrNotValidNumberValue is never reported (C73_counterexample, C73_listed). Otherwise proved: C73_exact gives the error for every text. Unclosed strings and bad escapes have errors without a constant."
  },
  {
   "property": "C74",
   "status": "proved",
   "theorems": [
    "JV.C74_linear",
    "JV.C74_noCopy",
    "JV.C74_reads_all"
   ],
   "note": "Counted are byte accesses (Model/Work says which); append, map assignment (beyond hashing the key) and allocation are taken to be constant, as they are amortised, and strconv.ParseFloat to be linear."
  },
  {
   "property": "C75",
   "status": "partial",
   "theorems": [
    "JV.C75_counterexample",
    "JV.C75_unclosed",
    "JV.C75_partial"
   ],
   "note": "False: nesting is not limited (counterexample: n brackets, closed or not, make n nested calls). Proved: never more nested calls than opening brackets in the text."
  },
  {
   "property": "C76",
   "status": "proved",
   "theorems": [
    "JV.C76_possible",
    "JV.C76_default",
    "JV.C76_keys",
    "JV.C76_less",
    "JV.C76_bySet",
    "JV.C76_ids_history",
    "JV.C76_ids_parsed",
    "JV.C76_depends"
   ],
   "note": "C76_possible for the values of C10 (others are not written as JSON). The order of visiting is modelled by the stored order of a shuffled value: same members with the same numbers, at any depth in another order. C76_depends is the simplest case of two texts."
  },
  {
   "property": "C77",
   "status": "proved",
   "theorems": [
    "JV.C77_get",
    "JV.C77_changes",
    "JV.C77_same_program",
    "JV.C77_observers",
    "JV.C77_typed",
    "JV.C77_reparsed",
    "JV.C77_same",
    "JV.C77_map_order",
    "JV.C77_counterexample"
   ],
   "note": "Children are values (aliasing between arguments and the tree is C39 and C52); nil and NotExist children are never Equal and are therefore excluded for Equal, but not for C77_same. C77_counterexample shows what may differ: IsFloat and the text of 1 and 1.0, a caseless lookup with several candidates."
  },
  {
   "property": "C78",
   "status": "proved",
   "theorems": [
    "JV.C78_value",
    "JV.C78_marshal",
    "JV.C78_indented",
    "JV.C78_rewritten",
    "JV.C78_rewritten_indented",
    "JV.C78_tight",
    "JV.C78_quadratic"
   ],
   "note": "Bytes of the value and of its text; memory taken by Go (headers, maps, spare capacity) is not counted. NaN and the infinities have no text of their own and are written with up to as many bytes as the options say; they do not come from Unmarshal."
  },
  {
   "property": "C79",
   "status": "proved",
   "theorems": [
    "JV.C79_get",
    "JV.C79_delete",
    "JV.C79_set",
    "JV.C79_set_child",
    "JV.C79_insert",
    "JV.C79_append",
    "JV.C79_not_found",
    "JV.C79_out_of_range",
    "JV.C79_never_not_found",
    "JV.C79_set_over"
   ],
   "note": "Exact, as inductive relations (Spec/PathErr), for paths without slices among the parameters (C28 reduces those) and receivers that are not nil. That an index beyond the end in the middle of a path of Set is no error is the deviation of C22."
  },
  {
   "property": "C80",
   "status": "proved",
   "theorems": [
    "JV.C80_wraps",
    "JV.C80_says",
    "JV.C80_points",
    "JV.C80_completes",
    "JV.C80_first",
    "JV.C80_incomplete",
    "JV.C80_short_rune",
    "JV.C80_colons_counterexample",
    "JV.C80_range_counterexample"
   ],
   "note": "A message is modelled as its kind and the numbers and bytes put into it; the wording is in the comments. What is odd is part of the statement or shown: the two numbers of `expect at least` are exchanged (C80_short_rune), two colons give the position of the key (C80_colons_counterexample), a second UTF-16 unit is reported by showing the first, a long negative number with a leading zero is said to be too large (C80_range_counterexample)."
  },
  {
   "property": "C81",
   "status": "partial",
   "theorems": [
    "JV.C81_partial",
    "JV.C81_range",
    "JV.C81_counterexample"
   ],
   "note": "False for integers from 2^64 on that the parser accepts: they wrap (C06; counterexample 30000000000000000000). Proved for all others, under the documented rounding of strconv.ParseFloat and of Go's conversions (Ieee, Spec/Ieee; ieeeEnv_ok shows that it can be met). C81_range: which literals are accepted."
  },
  {
   "property": "C82",
   "status": "partial",
   "theorems": [
    "JV.C82_int64",
    "JV.C82_uint64",
    "JV.C82_partial",
    "JV.C82_counterexample"
   ],
   "note": "False for integers that are not float64 numbers: 9007199254740993.0 (counterexample). C82_int64 and C82_uint64: true exactly if the number is written as an integer or is a float64; in particular up to 2^53 (C82_partial). Beyond the bounds given Go's conversion is implementation defined."
  },
  {
   "property": "C83",
   "status": "partial",
   "theorems": [
    "JV.C83_exact",
    "JV.C83_partial",
    "JV.C83_wrong",
    "JV.C83_counterexample"
   ],
   "note": "False: the number is rounded twice. 7.038531e-26 is read as the float32 with the bits 15ae43fe, the nearest one is 15ae43fd (C83_wrong). C83_exact: exactly when this happens. Integers from 2^64 on as in C81."
  },
  {
   "property": "C84",
   "status": "partial",
   "theorems": [
    "JV.C84_exact",
    "JV.C84_partial",
    "JV.C84_in_memory",
    "JV.widened_exists",
    "JV.C84_wrong",
    "JV.C84_counterexample"
   ],
   "note": "False: the float32 with the bits 15ae43fd comes back as 15ae43fe (C84_wrong), and integers from 2^64 to 1e21 (negative ones from 2^63) are lost as in C61. C84_exact: exactly for which float32 numbers it holds. C84_partial: all integers below 2^53."
  },
  {
   "property": "C85",
   "status": "proved",
   "theorems": [
    "JV.C85_parsed",
    "JV.C85_canonical",
    "JV.C85_settled",
    "JV.C85_reads",
    "JV.C85_caseless",
    "JV.C85_text",
    "JV.C85_integers",
    "JV.C85_counterexample"
   ],
   "note": "C85_parsed with C85_reads, C85_caseless and C85_text is the claim for documents, C85_settled for all values. Values of NewInt64 and NewUint64 survive even the first round trip (C85_integers), NewFloat64(1.5) does not: IsFloat is false before and true after (C85_counterexample)."
  },
  {
   "property": "C86",
   "status": "partial",
   "theorems": [
    "JV.C86_partial",
    "JV.C86_most",
    "JV.C86_float32",
    "JV.C86_six",
    "JV.C86_seven",
    "JV.C86_subnormal",
    "JV.C86_sixteen",
    "JV.C86_wraps",
    "JV.C86_counterexample"
   ],
   "note": "C86_partial: the claim for numbers that are 0 or at least 2^-1022, integers below 2^64. Below 2^-1022 it is false (C86_subnormal: 4.9e-324 becomes 5e-324), and for integers that wrap (C86_wraps). 15 cannot be 16 (C86_sixteen); what survives can be written with 17 digits (C86_most). C86_six is the second half, for numbers that are 0 or between 2^-126 and 3.40282e38: though the number is rounded twice (C83), Float32 is the nearest float32 for six digits (continued fractions, all exponents checked by the kernel); seven may be too many (C86_seven)."
  },
  {
   "property": "C87",
   "status": "partial",
   "theorems": [
    "JV.C87_import",
    "JV.C87_partial",
    "JV.C87_fifteen",
    "JV.C87_back",
    "JV.C87_counterexample",
    "JV.C87_vertical_tab"
   ],
   "note": "C87_partial: what Export and Import give is Equal to the value if and only if each number in it is the one that NewFloat64 writes for the nearest float64; C87_fifteen: so it is for numbers with at most 15 digits that are 0 or at least 2^-1022. 16 digits may be too many (C87_counterexample). C87_back: the way from data to data, C87_import its first half without conditions on strings. Strings with U+000B cannot be exported (C87_vertical_tab, see C64), nor can values that nest deeper than 10000. The hypotheses are those of C64."
  },
  {
   "property": "C88",
   "status": "partial",
   "theorems": [
    "JV.C88_counterexample",
    "JV.C88_quadratic",
    "JV.C88_partial",
    "JV.C88_any",
    "JV.C88_rewritten",
    "JV.C88_stack"
   ],
   "note": "False with OptIndent and an empty indentation: writeIndent goes through a loop as deep as the line although it writes nothing (n brackets: 4n + 2 bytes, n*n + 5n + 2 steps). Proved for all other options: at most two steps for each byte and one for each member left out, and at least one for each byte; with an empty indentation the nesting comes in as a factor; 13 steps for each byte of a text that is rewritten on one line. append is taken to be constant, as it is amortised; options that order members are left out."
  },
  {
   "property": "C89",
   "status": "partial",
   "theorems": [
    "JV.C89_one",
    "JV.C89_text",
    "JV.C89_first",
    "JV.C89_nil",
    "JV.C89_equal",
    "JV.C89_marshal",
    "JV.C89_rewritten"
   ],
   "note": "All of it but one point: for the empty text Unmarshal returns nil, on which each question panics (C89_text, C89_nil; UnmarshalNoCopy and UnmarshalString return a value of no kind). C89_marshal: numbers whose text begins with a digit or a sign; Inf and NaN have no text and may be written as null or a string (C14)."
  },
  {
   "property": "C90",
   "status": "partial",
   "theorems": [
    "JV.C90_quadratic",
    "JV.C90_counterexample",
    "JV.C90_partial",
    "JV.C90_doubling",
    "JV.C90_without",
    "JV.C90_rewritten"
   ],
   "note": "False: below a path whose array is full, append copies the whole path for each element, also for elements that are scalars, on which the less function is never called. n nulls nested n deep are 9n bytes and more than n*n pointers, however append grows (C90_quadratic). Proved: at most the room of the longest path for each element and member, which is the square of the length of the text if append doubles (C90_rewritten); nothing at all without a less function (C90_without). The room of arrays is a lower bound of the time; the calls of the less function are not counted."
  },
  {
   "property": "C91",
   "status": "partial",
   "theorems": [
    "JV.C91_equal_partial",
    "JV.C91_texts_partial",
    "JV.C91_any",
    "JV.C91_numbers",
    "JV.C91_digits",
    "JV.C91_counterexample",
    "JV.C91_huge",
    "JV.C91_looks_at_all",
    "JV.C91_contains",
    "JV.C91_contains_quadratic",
    "JV.C91_contains_counterexample"
   ],
   "note": "False: two numbers are compared as integers with all the zeros their exponents stand for. `1e-99999` and `1`, nine bytes, are compared as integers of up to 100000 digits (C91_counterexample, with strconv as IEEE 754 says); `1e-2147483647`, which is 0 to strconv, takes 2147483648 digits (C91_huge). Proved: the factor is the largest exponent plus five (C91_equal_partial, C91_texts_partial), so five if there is none, and never above 2^31 + 5 (C91_any); exactly how many digits are compared (C91_digits). Contains tries every place for an array in an array: no more than the product of the sizes (C91_contains), and no linear bound holds (C91_contains_counterexample). Digits are counted, not the time big.Int takes to multiply."
  },
  {
   "property": "C92",
   "status": "partial",
   "theorems": [
    "JV.C92_partial",
    "JV.C92_endless",
    "JV.C92_exact",
    "JV.C92_cycle",
    "JV.C92_never",
    "JV.C92_counterexample",
    "JV.C92_left_out"
   ],
   "note": "False: a pointer to itself, a slice or map that contains itself and a ring of structs are followed for ever (C92_never, C92_counterexample); encoding/json reports an error for these. Proved: exactly where following the data ends, Import returns a value when nothing in the data is refused (C92_exact), and then it gives what it gives for the tree the data unfold to (C92_partial), so that C40 and C53 speak about data with shared pointers too; among finitely many values that means that nothing that is looked at leads back to itself (C92_cycle); a ring closed by a field tagged `-` does no harm (C92_left_out). A `*V` and the results of MarshalJSON and MarshalText are leaves here; for cycles among `*V` see C47."
  },
  {
   "property": "C93",
   "status": "partial",
   "theorems": [
    "JV.C93_partial",
    "JV.C93_trees",
    "JV.C93_true_iff",
    "JV.C93_never",
    "JV.C93_self",
    "JV.C93_copy",
    "JV.C93_loop",
    "JV.C93_counterexample",
    "JV.C93_order"
   ],
   "note": "False: `v.Set(v).At(\"a\")` and then `v.Equal(v)` or Contains(v, v) (C93_loop, C93_counterexample); for two such values that differ, whether Equal returns can depend on the order of map iteration (C93_order). Proved: one of the two free of cycles is enough for both to return (C93_partial); if both are, the answers are those of C32 and C34 (C93_trees); exactly when the answer is true (C93_true_iff); values that look alike and contain themselves never compare (C93_never, C93_self); a copy is made exactly of values that do not contain themselves (C93_copy). Contains without a path, with a `*V` as second argument."
  },
  {
   "property": "C94",
   "status": "partial",
   "theorems": [
    "JV.C94_partial",
    "JV.C94_called_with",
    "JV.C94_sorted",
    "JV.C94_counterexample"
   ],
   "note": "False: for an object that is an element of an array, `Parent` is the array and not the object (C94_counterexample). Proved: the claim for values without objects in arrays (C94_partial); for all values, exactly what `Parent` is: the object itself below an object, the array below an array, none at the top (C94_called_with); and the members stand in the order of the less function called with that very parent (C94_sorted)."
  },
  {
   "property": "C95",
   "status": "partial",
   "theorems": [
    "JV.C95_partial",
    "JV.C95_tidy",
    "JV.C95_worst",
    "JV.C95_doubling",
    "JV.C95_counterexample"
   ],
   "note": "False: Append and Set store the pointer, and Marshal and Equal follow it from each place. 3n + 1 calls of NewArray and Append make n + 1 arrays that are written with 5 * 2^n - 3 bytes, and Equal of the value with itself takes 2^(n+1) - 1 calls (C95_doubling, C95_counterexample). Proved: the claim for values whose parts are in one place each (C95_partial), so for every program that stores each value once at most (C95_tidy); for all programs it is no worse than 2 to the power of the memory in use (C95_worst)."
  },
  {
   "property": "C96",
   "status": "partial",
   "theorems": [
    "JV.C96_places",
    "JV.C96_containers",
    "JV.C96_all_or_nothing",
    "JV.C96_roundtrip_partial",
    "JV.C96_checked",
    "JV.C96_one_result",
    "JV.C96_counterexample",
    "JV.C96_null"
   ],
   "note": "False: the methods have pointer receivers and V has no exported field, so a V that cannot be addressed (in a map, or in a struct or an array that is passed itself) is written as {} whatever it holds, without an error (C96_places, C96_counterexample); and null in a *V comes back as a nil pointer (C96_null). Proved: what stands at each place (C96_places); one failing value leaves no text at all (C96_all_or_nothing); the round trip where each V is addressable, with nil for a pointer to null (C96_roundtrip_partial); json.Unmarshal has one result (C96_one_result). The types of encoding/json around the values are modelled after its published source."
  },
  {
   "property": "C97",
   "status": "partial",
   "theorems": [
    "JV.C97_one_object_partial",
    "JV.C97_caseless_partial",
    "JV.C97_index_made",
    "JV.C97_counterexample",
    "JV.C97_order_partial",
    "JV.C97_order_counterexample",
    "JV.C97_array",
    "JV.C97_array_counterexample",
    "JV.C97_array_nil",
    "JV.C97_array_append"
   ],
   "note": "False in three ways. The index of lower-case keys is per variable if it was not made before the assignment: a caseless Get then misses keys set through the other copy (C97_counterexample). The counter of set order is per variable: a key set last may come first (C97_order_counterexample). An array is neither shared nor copied: after a deletion through v, w shows one element twice (C97_array_counterexample) or a nil pointer (C97_array_nil), and elements appended through one are overwritten by the other (C97_array_append). Proved: exact Get, Set and Delete act on one object in all programs, and caseless calls never find anything wrong (C97_one_object_partial); caseless calls are complete when the index is made before copying (C97_caseless_partial, C97_index_made); the order is right when one variable does all Sets (C97_order_partial); exactly what every array operation does to the other variables (C97_array)."
  },
  {
   "property": "C98",
   "status": "partial",
   "theorems": [
    "JV.C98_counterexample",
    "JV.C98_exact",
    "JV.C98_deleted",
    "JV.C98_replaced",
    "JV.C98_partial",
    "JV.C98_bound",
    "JV.C98_refill",
    "JV.C98_front",
    "JV.C98_half"
   ],
   "note": "False: deleteInArr moves the later elements down and does not clear the cell that the last one came from, so an element that is deleted later stays there (two elements, Delete(0) twice: C98_counterexample). C98_exact: what is kept after any history. C98_deleted: a removed element is kept exactly if an earlier deletion had left a pointer to it. Proved as stated for arrays of which only the last element is ever deleted (C98_partial). At most one pointer for each deletion is kept (C98_bound), all are let go when the array is filled again or grows (C98_refill); a queue keeps its last element only (C98_front), deleting from both ends by turns keeps half of the array (C98_half)."
  },
  {
   "property": "C99",
   "status": "partial",
   "theorems": [
    "JV.C99_partial",
    "JV.C99_indexes",
    "JV.C99_missed",
    "JV.C99_skipped",
    "JV.C99_schedule",
    "JV.C99_leak",
    "JV.C99_objects",
    "JV.C99_objects_fatal",
    "JV.C99_counterexample"
   ],
   "note": "False as stated (C99_counterexample): the goroutine evaluates v.children only when it runs and reads the cells of the backing array one by one. For every array: a Delete right after the call can make the caller miss the first element (C99_missed); deleting the first element on receiving it can skip the second and deliver the last twice (C99_skipped), or not, depending on the schedule (C99_schedule); an Append right after the call can leave the goroutine blocked for good (C99_leak). For every object: a change can end the program even after the last member was received (C99_objects_fatal). Proved: a caller that, until it has seen the end, only appends and changes elements it has already received gets exactly the elements of the moment of the call, and the goroutine never blocks (C99_partial); any changes after the first element leave the indexes and the goroutine's end as they should be (C99_indexes); objects may be changed after the end of the channel (C99_objects). Missing: torn reads of a slice header under a data race; memory is sequentially consistent in the model."
  },
  {
   "property": "C100",
   "status": "partial",
   "theorems": [
    "JV.C100_partial",
    "JV.C100_late",
    "JV.C100_reuse",
    "JV.C100_counterexample"
   ],
   "note": "False as stated (C100_counterexample): option.go:318 and 327 keep the slice itself, and the order is read from it in each Marshal (C100_reuse: the default order changes although the defaults were set once). Proved for programs that leave a slice alone once they have made an option with it (C100_partial). For all programs exactly: each Marshal gives what it would give if its options, and those of the last SetDefaultMarshalOptions, were made again just before it (C100_late). Slices that overlap in part are not modelled."
  },
  {
   "property": "C101",
   "status": "partial",
   "theorems": [
    "JV.C101_partial",
    "JV.C101_exact",
    "JV.C101_whole",
    "JV.C101_text",
    "JV.C101_copy",
    "JV.C101_copy_value",
    "JV.C101_counterexample"
   ],
   "note": "False as stated (C101_counterexample): numbers, arrays and objects are elements of one slice, so a pointer to one keeps all. Proved for strings, booleans and null, and for inputs too short for an arena (C101_partial). With an arena exactly: a value keeps what is inside it, and the whole document as soon as it or something inside it is in the arena (C101_exact); if the arena was large enough every number, array or object keeps the whole document (C101_whole). The text is kept exactly by strings, numbers, objects with members and what keeps one of these (C101_text). A copy made with Import frees the arena but not the text (C101_copy; C101_copy_value: it is that copy). Trusted: Go's collector keeps a block as a whole and frees what nothing points to; stale values replaced by a repeated key are not counted."
  },
  {
   "property": "C102",
   "status": "proved",
   "theorems": [
    "JV.C102",
    "JV.C102_same",
    "JV.C102_first",
    "JV.C102_indexed"
   ],
   "note": "Steps are map accesses, turns of a range and calls of strings.ToLower. C102: at most ten for each call and five for each member at the start. C102_same: the counted histories are exactly those of C26 and C27. C102_first: one call alone is not bounded (the first caseless one goes through all members); C102_indexed: after it every call takes at most ten steps. Not modelled: Go's work inside one access; a range over a map from which many keys were deleted may walk over the room they left."
  },
  {
   "property": "C103",
   "status": "proved",
   "theorems": [
    "JV.C103",
    "JV.C103_growth",
    "JV.C103_stack",
    "JV.C103_least",
    "JV.C103_queue"
   ],
   "note": "C103_growth: the growth of Go's slices (runtime.growslice) is as the theorem asks, whatever size class it is rounded up to. C103_least: what lies behind the place is written in any case, so this part of the bound cannot be smaller. C103_queue: taking n elements one by one from the front writes exactly n(n+1)/2 elements. Counted are elements written by assignments, copy and append; not the clearing of new arrays by the allocator."
  },
  {
   "property": "C104",
   "status": "proved",
   "theorems": [
    "JV.C104",
    "JV.C104_separate",
    "JV.C104_order",
    "JV.C104_model",
    "JV.C104_shared"
   ],
   "note": "C104_model: the calls as sequences of memory accesses have the effect of the heap model. C104_shared: two different arrays that have one object in common are not enough for this; there is a data race. New values are made at addresses that belong to the goroutine from the start, since with one allocator for all the address of a new V would depend on the interleaving and the states be the same only up to renaming. Set.At and Append with paths that create containers are not among the programs as single calls; the calls they consist of are."
  },
  {
   "property": "C105",
   "status": "proved",
   "theorems": [
    "JV.C105",
    "JV.C105_undisturbed",
    "JV.C105_model",
    "JV.C105_model_paths",
    "JV.C105_unmarshal"
   ],
   "note": "C105_model: the calls as sequences of memory accesses have the effect of the heap model. For the results of the goroutines see C106."
  },
  {
   "property": "C106",
   "status": "proved",
   "theorems": [
    "JV.C106",
    "JV.C106_unmarshal",
    "JV.C106_parse_print",
    "JV.C106_copy",
    "JV.C106_copy_print",
    "JV.C106_print",
    "JV.C106_get",
    "JV.C106_parse_get_print",
    "JV.C106_parse_compare",
    "JV.C106_parse_change_print",
    "JV.C106_parse_set_print",
    "JV.C106_parse_sets_print",
    "JV.C106_parse_paths_print"
   ],
   "note": "C106 is the general rule: a property of the result that follows, for all choices of addresses, from the state of what the goroutine is given holds of the result in every interleaving, and of the result alone. The other theorems are its cases for Unmarshal, deep copy, Marshal, Get, Equal and Contains, and for any number of calls of Set, Insert, Append and Delete on the document, with new documents and at most one parameter each, or of Set, Insert, Append and Delete with new documents and any paths, containers being made on the way by Set and Append, between Unmarshal and Marshal."
  }
 ]
}