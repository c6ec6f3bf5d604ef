{
 "claims": [
  {
   "property": "C01",
   "status": "proved",
   "theorems": [
    "Verif.Bounded.C01_add_exact",
    "Verif.Bounded.C01_add_rejected_iff"
   ],
   "note": ""
  },
  {
   "property": "C02",
   "status": "partial",
   "theorems": [
    "Verif.Bounded.C02_mul_exact_violated",
    "Verif.Bounded.C02_mul_exact_partial",
    "Verif.Bounded.C02_mul_types"
   ],
   "note": "Multiplication accepts ranges whose exact lower bound lies in (-2^W, -2^(W-1)) and wraps them (C02_mul_exact_violated); exact otherwise. The types for which every product is exact are characterised completely (C02_mul_types)."
  },
  {
   "property": "C03",
   "status": "proved",
   "theorems": [
    "Verif.Bounded.C03_neg_exact",
    "Verif.Bounded.C03_neg_rejected_iff",
    "Verif.Bounded.C03_sub_exact"
   ],
   "note": ""
  },
  {
   "property": "C04",
   "status": "proved",
   "theorems": [
    "Verif.Bounded.C04_div_exact",
    "Verif.Bounded.C04_zero_bound_rejected",
    "Verif.Bounded.C04_div_undefined_iff"
   ],
   "note": ""
  },
  {
   "property": "C05",
   "status": "partial",
   "theorems": [
    "Verif.Bounded.C05_mod_values",
    "Verif.Bounded.C05_mod_exact_violated",
    "Verif.Bounded.C05_mod_exact_partial",
    "Verif.Bounded.C05_mod_zero_undefined"
   ],
   "note": "INT_MIN % -1 in the type of the computation is undefined (C05_mod_exact_violated); exact for every other pair with non-zero divisor (C05_mod_exact_partial). The operands that are undefined are characterised completely (C05_mod_values)."
  },
  {
   "property": "C06",
   "status": "proved",
   "theorems": [
    "Verif.Bounded.C06_mod_range_tight"
   ],
   "note": ""
  },
  {
   "property": "C07",
   "status": "partial",
   "theorems": [
    "Verif.Bounded.C07_shl_types",
    "Verif.Bounded.C07_shr_types",
    "Verif.Bounded.C07_shl_violated",
    "Verif.Bounded.C07_shl_exact_partial",
    "Verif.Bounded.C07_shr_violated",
    "Verif.Bounded.C07_shr_exact_partial"
   ],
   "note": "Shifts compile for argument types for which the built-in shift overflows or the shift count is out of range (C07_shl_violated, C07_shr_violated); exact otherwise. The types for which every shift is exact are characterised completely, for a widest type of 64 to 128 bits (C07_shl_types, C07_shr_types)."
  },
  {
   "property": "C08",
   "status": "partial",
   "theorems": [
    "Verif.Bounded.C08_and_values",
    "Verif.Bounded.C08_and_types",
    "Verif.Bounded.C08_and_violated",
    "Verif.Bounded.C08_and_exact_partial"
   ],
   "note": "The range computed for operator& is wrong for mixed signs (C08_and_violated); exact with the partial theorem's hypotheses. The types and values for which it is exact are characterised completely (C08_and_types, C08_and_values)."
  },
  {
   "property": "C09",
   "status": "proved",
   "theorems": [
    "Verif.Bounded.C09_safe_compare_exact",
    "Verif.Bounded.C09_safe_equal_exact",
    "Verif.Bounded.C09_compare_exact",
    "Verif.Bounded.C09_equal_exact"
   ],
   "note": ""
  },
  {
   "property": "C10",
   "status": "proved",
   "theorems": [
    "Verif.Bounded.C10_normalize_value",
    "Verif.Bounded.C10_accepted_iff",
    "Verif.Bounded.C10_storage_holds_range",
    "Verif.Bounded.C10_storage_narrowest",
    "Verif.Bounded.C10_construct_read",
    "Verif.Bounded.C10_convert_exact"
   ],
   "note": ""
  },
  {
   "property": "C11",
   "status": "partial",
   "theorems": [
    "Verif.Bounded.C11_expression_exact_partial",
    "Verif.Bounded.C11_mul_violated"
   ],
   "note": "Expressions containing a product whose exact range is accepted but not representable wrap (C11_mul_violated); exact for all expressions in which no such product occurs."
  },
  {
   "property": "C12",
   "status": "partial",
   "theorems": [
    "Verif.Bounded.C12_assign_exact",
    "Verif.Bounded.C12_assign_rejected_iff",
    "Verif.Bounded.C12_history_partial",
    "Verif.Bounded.C12_mul_violated"
   ],
   "note": "x *= y inherits the wrap of multiplication (C12_mul_violated); every other history of assignments is exact."
  },
  {
   "property": "C13",
   "status": "partial",
   "theorems": [
    "Verif.Bounded.C13_check_in_range_partial",
    "Verif.Bounded.C13_check_in_range_target",
    "Verif.Bounded.C13_check_in_range_builtin_partial",
    "Verif.Bounded.C13_check_in_range_violated"
   ],
   "note": "check_in_range with two built-in arguments of different signedness compares after the usual arithmetic conversions and accepts or rejects wrongly (C13_check_in_range_violated)."
  },
  {
   "property": "C14",
   "status": "partial",
   "theorems": [
    "Verif.Bounded.C14_min_exact",
    "Verif.Bounded.C14_max_exact",
    "Verif.Bounded.C14_minmax_range",
    "Verif.Bounded.C14_generic_extreme_first",
    "Verif.Bounded.C14_clamp_exact",
    "Verif.Bounded.C14_abs_exact",
    "Verif.Bounded.C14_three_violated"
   ],
   "note": "Proved for the value that is selected, its range and its place among equal arguments, and for clamp and abs. With three or more arguments of different types the result can refer to a temporary object that has ended, so that using it is undefined (C14_three_violated, C73)."
  },
  {
   "property": "C15",
   "status": "proved",
   "theorems": [
    "Verif.Bounded.C15_to_integer_exact",
    "Verif.Bounded.C15_to_integer_builtin_exact",
    "Verif.Bounded.C15_denotes_unique"
   ],
   "note": ""
  },
  {
   "property": "C16",
   "status": "proved",
   "theorems": [
    "Verif.Bounded.C16_to_string_exact",
    "Verif.Bounded.C16_to_string_accepts",
    "Verif.Bounded.C16_round_trip",
    "Verif.Bounded.C16_to_string_injective",
    "Verif.Bounded.C16_length_bound"
   ],
   "note": ""
  },
  {
   "property": "C17",
   "status": "proved",
   "theorems": [
    "Verif.Bounded.C17_log_exact",
    "Verif.Bounded.C17_pow_exact",
    "Verif.Bounded.C17_pow_overflow_rejected"
   ],
   "note": ""
  },
  {
   "property": "C18",
   "status": "proved",
   "theorems": [
    "Verif.Bounded.C18_digits_safe",
    "Verif.Bounded.C18_representation_bits_safe"
   ],
   "note": ""
  },
  {
   "property": "C19",
   "status": "proved",
   "theorems": [
    "Verif.Bounded.C19_spare_count",
    "Verif.Bounded.C19_make_index",
    "Verif.Bounded.C19_live_index",
    "Verif.Bounded.C19_make_bijective",
    "Verif.Bounded.C19_compiles"
   ],
   "note": ""
  },
  {
   "property": "C20",
   "status": "proved",
   "theorems": [
    "Verif.Tv.C20_observers",
    "Verif.Tv.C20_levels_distinct",
    "Verif.Tv.C20_tombstones_free",
    "Verif.Tv.C20_spare_count",
    "Verif.Tv.C20_no_overhead",
    "Verif.Tv.C20_spare_after_tag",
    "Verif.Tv.C20_integers_lawful"
   ],
   "note": ""
  },
  {
   "property": "C21",
   "status": "partial",
   "theorems": [
    "Verif.Tv.C21_variant_history",
    "Verif.Tv.C21_nullable_history_partial",
    "Verif.Tv.C21_nullable_throw_violated",
    "Verif.Tv.C21_observers",
    "Verif.Tv.C21_equality"
   ],
   "note": "For element types with a spare representation, a constructor that throws inside an existing optional leaves no object in the storage (C21_nullable_throw_violated); every other history is exact, and all histories are exact for types stored in a variant."
  },
  {
   "property": "C22",
   "status": "proved",
   "theorems": [
    "Verif.Tv.C22_variant_history",
    "Verif.Tv.C22_equality"
   ],
   "note": ""
  },
  {
   "property": "C23",
   "status": "proved",
   "theorems": [
    "Verif.Tv.C23_visit_exact",
    "Verif.Tv.C23_visit_reachable",
    "Verif.Tv.C23_visit_undefined",
    "Verif.Tv.C23_get_index"
   ],
   "note": ""
  },
  {
   "property": "C24",
   "status": "proved",
   "theorems": [
    "Verif.Tv.C24_compare_lexicographic",
    "Verif.Tv.C24_equality",
    "Verif.Tv.C24_compare_short_circuit",
    "Verif.Tv.C24_equality_short_circuit",
    "Verif.Tv.C24_tuple_cat",
    "Verif.Tv.C24_transform"
   ],
   "note": ""
  },
  {
   "property": "C25",
   "status": "partial",
   "theorems": [
    "Verif.Containers.C25_vector_history_partial",
    "Verif.Containers.C25_at",
    "Verif.Containers.C25_insert_nothing_violated",
    "Verif.Containers.C25_moved_from_violated"
   ],
   "note": "Every history of any number of vectors refines sequences (C25_vector_history_partial), at() is exact (C25_at). Violated by insert of an empty range before the end with room (C25_insert_nothing_violated) and by operations on moved-from vectors (C25_moved_from_violated)."
  },
  {
   "property": "C26",
   "status": "partial",
   "theorems": [
    "Verif.Containers.C26_growth_partial",
    "Verif.Containers.C26_push_back_violated",
    "Verif.Containers.C26_append_violated"
   ],
   "note": "Growth succeeds when the maximum is at least twice the capacity (C26_growth_partial); near the maximum push_back is undefined (C26_push_back_violated) and append/insert throw (C26_append_violated)."
  },
  {
   "property": "C27",
   "status": "partial",
   "theorems": [
    "Verif.Containers.C27_lifetimes_partial",
    "Verif.Containers.C27_failed_allocation_violated",
    "Verif.Containers.C27_unsized_constructor_violated"
   ],
   "note": "Exact lifetimes through every history including exceptions (C27_lifetimes_partial), except an assignment whose allocation fails (C27_failed_allocation_violated) and construction from an unsized range whose later element throws (C27_unsized_constructor_violated)."
  },
  {
   "property": "C28",
   "status": "partial",
   "theorems": [
    "Verif.Containers.C28_static_vector_history_partial",
    "Verif.Containers.C28_over_capacity",
    "Verif.Containers.C28_append_violated"
   ],
   "note": "Every history of any number of static_vectors refines bounded sequences (C28_static_vector_history_partial, C28_over_capacity); append and resize past the capacity write beyond the storage when the source alone would fit (C28_append_violated)."
  },
  {
   "property": "C29",
   "status": "proved",
   "theorems": [
    "Verif.Containers.C29_round_trip",
    "Verif.Containers.C29_last_byte",
    "Verif.Containers.C29_set_size"
   ],
   "note": "Round trip for every size type and size (C29_round_trip), independence of the bit-fields of the last byte (C29_last_byte), and set_size on any vector in use (C29_set_size)."
  },
  {
   "property": "C30",
   "status": "partial",
   "theorems": [
    "Verif.Containers.C30_sbo_vector_history_partial",
    "Verif.Containers.C30_failed_allocation_violated",
    "Verif.Containers.C30_replace_empty_small",
    "Verif.Containers.C30_element_left_behind"
   ],
   "note": "Every history of any number of sbo_vectors refines sequences and owns a heap block exactly when large (C30_sbo_vector_history_partial), except an assignment of trivially copyable elements to a large vector whose allocation fails (C30_failed_allocation_violated)."
  },
  {
   "property": "C31",
   "status": "partial",
   "theorems": [
    "Verif.Lists.C31_history_partial",
    "Verif.Lists.C31_splice_in_place_violated",
    "Verif.Lists.C31_failed_copy_violated",
    "Verif.Lists.LHeap.C31_destroy_twice"
   ],
   "note": "Every history of any number of lists refines sequences with stable element identities, in both directions of traversal (C31_history_partial). Excluded: a splice whose position is the end of the moved range, which trips an assertion although nothing needs to move (C31_splice_in_place_violated), and construction from a range that throws midway, which leaks the nodes made so far (C31_failed_copy_violated)."
  },
  {
   "property": "C32",
   "status": "partial",
   "theorems": [
    "Verif.Lists.C32_history_partial",
    "Verif.Lists.C32_destroyed_once",
    "Verif.Lists.C32_erase_after_result",
    "Verif.Lists.C32_failed_copy_violated"
   ],
   "note": "Every history of any number of forward lists refines sequences (C32_history_partial), except construction from a range that throws midway, which leaks the nodes made so far (C32_failed_copy_violated)."
  },
  {
   "property": "C33",
   "status": "partial",
   "theorems": [
    "Verif.Maps.C33_find",
    "Verif.Maps.C33_lookup",
    "Verif.Maps.C33_insert",
    "Verif.Maps.C33_insert_range_partial",
    "Verif.Maps.C33_construct_partial",
    "Verif.Maps.C33_construct_unique_partial",
    "Verif.Maps.C33_construct_sorted_unique",
    "Verif.Maps.C33_construct_sorted_unique_accepts",
    "Verif.Maps.C33_erase",
    "Verif.Maps.C33_erase_range",
    "Verif.Maps.C33_erase_if",
    "Verif.Maps.C33_upsert_keys",
    "Verif.Maps.C33_upsert_partial",
    "Verif.Maps.C33_history_partial",
    "Verif.Maps.C33_upsert_violated",
    "Verif.Maps.C33_self_move_violated",
    "Verif.Maps.C33_room_violated",
    "Verif.Maps.C33_many_violated"
   ],
   "note": "Single insertion, erasing, find, lookup, construction and upsert are proved for all contents (upsert when keys already present come first in the source), range insertion and construction for up to 128 elements, one-byte keys, safe radix chains and numbers whose groups of common leading bytes have the right sizes, and whole histories of these. Violations are proved: upsert misses existing keys, range insertion loses values of self-moved elements, needs room for keys that are already there, and large maps can be unsorted (inherited from the radix sort)."
  },
  {
   "property": "C34",
   "status": "partial",
   "theorems": [
    "Verif.Maps.C34_insert",
    "Verif.Maps.C34_insert_range_partial",
    "Verif.Maps.C34_construct_partial",
    "Verif.Maps.C34_construct_elements",
    "Verif.Maps.C34_many_violated",
    "Verif.Maps.C34_equal_range",
    "Verif.Maps.C34_history_partial",
    "Verif.Maps.C34_inserted_partial"
   ],
   "note": "Every history of single and range insertions and erasures is proved, with std::inplace_merge as an assumption; after insertions only, the contents are the stable sort of the inserted elements. A multimap made from any range has its elements (C34_construct_elements). Partial because ranges of more than 128 elements need a key or contents for which the radix sort is proved (C42): C34_many_violated is a multimap of 129 elements that is not sorted and does not find one of them."
  },
  {
   "property": "C35",
   "status": "partial",
   "theorems": [
    "Verif.Maps.C35_find",
    "Verif.Maps.C35_lookup",
    "Verif.Maps.C35_insert",
    "Verif.Maps.C35_insert_range_partial",
    "Verif.Maps.C35_construct_unique",
    "Verif.Maps.C35_insert_range_unique",
    "Verif.Maps.C35_construct_partial",
    "Verif.Maps.C35_history_partial",
    "Verif.Maps.C35_keeps",
    "Verif.Maps.C35_first_wins_violated"
   ],
   "note": "Unique keys, find, lookup, single insertion, erasing and whole histories are proved for all contents. A range with two elements of the same new key may give it the later value (C35_first_wins_violated); for ranges with unique keys the full claim is proved."
  },
  {
   "property": "C36",
   "status": "proved",
   "theorems": [
    "Verif.Algo.C36_partition_point_safe",
    "Verif.Algo.C36_partition_point",
    "Verif.Algo.C36_is_partitioned",
    "Verif.Algo.C36_lower_bound",
    "Verif.Algo.C36_upper_bound",
    "Verif.Algo.C36_equal_range",
    "Verif.Algo.C36_binary_search"
   ],
   "note": ""
  },
  {
   "property": "C37",
   "status": "proved",
   "theorems": [
    "Verif.Algo.C37_partition",
    "Verif.Algo.C37_iterator_partition",
    "Verif.Algo.C37_iterator_partition_empty"
   ],
   "note": ""
  },
  {
   "property": "C38",
   "status": "proved",
   "theorems": [
    "Verif.Algo.C38_is_sorted",
    "Verif.Algo.C38_introsort",
    "Verif.Algo.C38_new_sort"
   ],
   "note": ""
  },
  {
   "property": "C39",
   "status": "partial",
   "theorems": [
    "Verif.Algo.C39_in_place_anywhere",
    "Verif.Algo.C39_in_place",
    "Verif.Algo.C39_relocate_partial",
    "Verif.Algo.C39_sort_exactly_partial",
    "Verif.Algo.C39_branchless_stable_violated"
   ],
   "note": "All decision trees are checked by a verified procedure: in place versions sort stably at any placement in memory (C39_in_place, C39_in_place_anywhere); the relocating versions and sort_exactly_n sort, stably except for four cheaply sortable elements (C39_relocate_partial, C39_sort_exactly_partial), where the documented stability fails (C39_branchless_stable_violated)."
  },
  {
   "property": "C40",
   "status": "partial",
   "theorems": [
    "Verif.Algo.C40_merge_relocate_partial",
    "Verif.Algo.C40_merge_relocate_complete_violated",
    "Verif.Algo.C40_fixed_size_merge_sort_partial",
    "Verif.Algo.C40_chunked_insertion_sort_partial",
    "Verif.Algo.C40_chunked_insertion_sort_violated"
   ],
   "note": "The code loses an element of the second range whenever that range holds the smallest element (C40_merge_relocate_complete_violated, C40_chunked_insertion_sort_violated). Proved for the remaining inputs: the overlapping merge is complete, stable and never overwrites an unread element (C40_merge_relocate_partial); likewise fixed_size_merge_sort and chunked_insertion_sort (the _partial theorems name the exact hypothesis)."
  },
  {
   "property": "C41",
   "status": "proved",
   "theorems": [
    "Verif.Algo.C41_double_buffered_ska_sort",
    "Verif.Algo.C41_unique"
   ],
   "note": ""
  },
  {
   "property": "C42",
   "status": "partial",
   "theorems": [
    "Verif.Algo.C42_ska_sort_groups_partial",
    "Verif.Algo.C42_american_flag_ignores_rest",
    "Verif.Algo.C42_american_flag_always_violated",
    "Verif.Algo.C42_american_flag_blocks_left",
    "Verif.Algo.C42_ska_sort_leading_byte_partial",
    "Verif.Algo.C42_ska_sort_two_bytes_partial",
    "Verif.Algo.C42_permutation",
    "Verif.Algo.C42_ska_sort_partial",
    "Verif.Algo.C42_ska_sort_small",
    "Verif.Algo.C42_ska_sort_bytes",
    "Verif.Algo.C42_american_flag_violated",
    "Verif.Algo.C42_range_of_tuples_violated"
   ],
   "note": "ska_sort always permutes (C42_permutation) and sorts ranges of at most 128 elements (C42_ska_sort_small) and of any size for keys of booleans and at most one final byte (C42_ska_sort_bytes). In general it sorts unless american_flag_sort returned early, for keys without ranges of tuples (C42_ska_sort_partial). For one number of any number of bytes the input decides: it sorts if no group of 129 to 1023 elements with common leading bytes has two different next bytes, unless that byte is the last (C42_ska_sort_groups_partial); every range of 129 to 1023 elements with two different leading bytes, the largest of which occurs twice, is only ordered by its leading bytes (C42_american_flag_ignores_rest, C42_american_flag_always_violated). If the largest byte occurs once, the last two elements decide; so for numbers of two bytes every range is known to be sorted (C42_ska_sort_two_bytes_partial) or to be ordered by its first bytes only (C42_american_flag_blocks_left). Not characterised: with three or more bytes, inner groups in which the largest byte occurs exactly once. Concrete failures: C42_american_flag_violated, C42_range_of_tuples_violated."
  },
  {
   "property": "C43",
   "status": "partial",
   "theorems": [
    "Verif.Algo.C43_bool",
    "Verif.Algo.C43_unsigned",
    "Verif.Algo.C43_signed",
    "Verif.Algo.C43_char_unsigned",
    "Verif.Algo.C43_char_partial",
    "Verif.Algo.C43_char_violated",
    "Verif.Algo.C43_float_partial",
    "Verif.Algo.C43_zero_violated"
   ],
   "note": "Keys of booleans, unsigned and signed integers and unsigned character types preserve order and values; floating point keys preserve order away from NaN (C43_float_partial) but -0.0 and +0.0 get different keys (C43_zero_violated); plain char where it is signed is converted without the offset, so the order is not preserved (C43_char_violated, C43_char_partial)."
  },
  {
   "property": "C44",
   "status": "partial",
   "theorems": [
    "Verif.Algo.C44_unique",
    "Verif.Algo.C44_unique_copy",
    "Verif.Algo.C44_unique_copy_source",
    "Verif.Algo.C44_unique_less",
    "Verif.Algo.C44_unique_merge_copy",
    "Verif.Algo.C44_unique_inplace_merge_partial",
    "Verif.Algo.C44_self_move_violated"
   ],
   "note": "unique, unique_copy, unique_copy_less, unique_merge_copy are proved in full. unique_inplace_merge assigns every already-in-place element of the tail to itself by move; C44_unique_inplace_merge_partial covers element types whose self-move keeps the value, C44_self_move_violated gives a type and ranges where the result is lost."
  },
  {
   "property": "C45",
   "status": "proved",
   "theorems": [
    "Verif.Algo.C45_set_intersection",
    "Verif.Algo.C45_set_intersection_mem"
   ],
   "note": ""
  },
  {
   "property": "C46",
   "status": "partial",
   "theorems": [
    "Verif.Containers.C46_vector_erase",
    "Verif.Containers.C46_vector_erase_if_partial",
    "Verif.Containers.C46_erase_if_count_violated",
    "Verif.Lists.C46_list_erase_if"
   ],
   "note": "The remaining elements are exact for vectors and for linked lists (C46_list_erase_if); the number returned by erase_if is wrong for vectors (C46_erase_if_count_violated)."
  },
  {
   "property": "C47",
   "status": "proved",
   "theorems": [
    "Verif.Views.C47_lexicographical_compare",
    "Verif.Views.C47_lexicographical_compare_assume_same_size",
    "Verif.Views.C47_shortlex_compare",
    "Verif.Views.C47_equal",
    "Verif.Views.C47_equal_assume_same_size",
    "Verif.Views.C47_equal_eq",
    "Verif.Views.C47_antisymmetric",
    "Verif.Views.C47_transitive",
    "Verif.Views.C47_shortlex_antisymmetric",
    "Verif.Views.C47_shortlex_transitive",
    "Verif.Views.C47_equal_consistent"
   ],
   "note": ""
  },
  {
   "property": "C48",
   "status": "partial",
   "theorems": [
    "Verif.Views.C48_join_with",
    "Verif.Views.C48_join",
    "Verif.Views.C48_join_with_linear_size",
    "Verif.Views.C48_split_difference_type",
    "Verif.Views.C48_join_of_split",
    "Verif.Views.C48_split",
    "Verif.Views.C48_split_of_join",
    "Verif.Views.C48_split_range",
    "Verif.Views.C48_split_keep_delimiters",
    "Verif.Views.C48_split_range_keep_delimiters",
    "Verif.Views.C48_keep_delimiters_equality_violated",
    "Verif.Views.C48_order_violated"
   ],
   "note": "split (single element and range delimiters), split keeping delimiters and join_with over forward ranges given by their operations. Violated: with kept delimiters two different positions compare equal; the order of split iterators puts a trailing empty piece after the end. std::search is an external assumption (first occurrence)."
  },
  {
   "property": "C49",
   "status": "partial",
   "theorems": [
    "Verif.Algo.Foreign.C49_legacy_append",
    "Verif.Algo.Foreign.C49_legacy_append_once",
    "Verif.Algo.Foreign.C49_concatenate_other_library",
    "Verif.Containers.C49_concatenate_partial",
    "Verif.Containers.C49_concatenate_exception_violated",
    "Verif.Views.C49_concatenate_view",
    "Verif.Views.C49_concatenate_view_random_access"
   ],
   "note": "concatenate_view of any number of ranges of one type, forward and random access. The container-building concatenate is proved for every number of arguments, with reused storage, when no element operation throws; with an exception and reused storage it is violated (the donor container destroys elements that were already relocated). For results of other libraries (std::vector, std::string: C49_concatenate_other_library, C49_legacy_append) the member functions of the standard containers are assumed."
  },
  {
   "property": "C50",
   "status": "partial",
   "theorems": [
    "Verif.Views.C50_transform",
    "Verif.Views.C50_transform_random_access",
    "Verif.Views.C50_filter",
    "Verif.Views.C50_filter_positions",
    "Verif.Views.C50_take",
    "Verif.Views.C50_take_random_access",
    "Verif.Views.C50_check_size_not_greater_than",
    "Verif.Views.C50_drop",
    "Verif.Views.C50_drop_exactly",
    "Verif.Views.C50_drop_random_access",
    "Verif.Views.C50_drop_back_exactly",
    "Verif.Views.C50_drop_back_exactly_random_access",
    "Verif.Views.C50_reversed",
    "Verif.Views.C50_adjacent",
    "Verif.Views.C50_adjacent_random_access",
    "Verif.Views.C50_adjacent_size",
    "Verif.Views.C50_adjacent_end_minus_partial",
    "Verif.Views.C50_adjacent_end_minus_violated",
    "Verif.Views.C50_chunk_by",
    "Verif.Views.C50_chunk_by_equality",
    "Verif.Views.C50_integer_range",
    "Verif.Views.C50_integer_range_random_access_partial",
    "Verif.Views.C50_integer_range_accepts",
    "Verif.Views.C50_integer_range_downwards_violated",
    "Verif.Views.C50_inclusive_integer_range",
    "Verif.Views.C50_enum_range",
    "Verif.Views.C50_zip",
    "Verif.Views.C50_zip_nothing",
    "Verif.Views.C50_zip_throws",
    "Verif.Views.C50_zip_smallest",
    "Verif.Views.C50_zip_smallest_random_access"
   ],
   "note": "Views over ranges given by their operations; element functions and predicates are pure and total. zip of ranges of one element type; the least size of three or more ranges is taken as a number, although it can refer to an object that has ended (C73). Violated: the difference of the sentinel and an iterator of adjacent leaves its type for ranges of the greatest size; iterators of integer ranges downwards are ordered backwards."
  },
  {
   "property": "C51",
   "status": "proved",
   "theorems": [
    "Verif.Containers.C51_uninitialized_copy",
    "Verif.Containers.C51_relocate_no_overlap",
    "Verif.Containers.C51_relocate_overlap",
    "Verif.Containers.C51_relocate_onto_itself"
   ],
   "note": ""
  },
  {
   "property": "C52",
   "status": "partial",
   "theorems": [
    "Verif.Bounded.C52_sum_to_exact",
    "Verif.Bounded.C52_sum_exact_partial",
    "Verif.Bounded.C52_sum_violated",
    "Verif.Bounded.C52_product_to_exact",
    "Verif.Bounded.C52_product_exact"
   ],
   "note": "The deduced result type of sum wraps for wide negative element ranges (C52_sum_violated); exact with a caller-supplied type, for products, and otherwise."
  },
  {
   "property": "C53",
   "status": "proved",
   "theorems": [
    "Verif.Algo.C53_find_if",
    "Verif.Algo.C53_find_if_not",
    "Verif.Algo.C53_find",
    "Verif.Algo.C53_find_last_if",
    "Verif.Algo.C53_find_last_if_not",
    "Verif.Algo.C53_find_last",
    "Verif.Algo.C53_all",
    "Verif.Algo.C53_any",
    "Verif.Algo.C53_none",
    "Verif.Algo.C53_all_equal",
    "Verif.Algo.C53_any_equal",
    "Verif.Algo.C53_none_equal",
    "Verif.Algo.C53_maybe_find",
    "Verif.Algo.C53_count_if",
    "Verif.Algo.C53_count",
    "Verif.Algo.C53_mismatch",
    "Verif.Algo.C53_min_element",
    "Verif.Algo.C53_max_element",
    "Verif.Views.C53_starts_with",
    "Verif.Views.C53_starts_with_random_access",
    "Verif.Views.C53_ends_with",
    "Verif.Views.C53_ends_with_random_access"
   ],
   "note": ""
  },
  {
   "property": "C54",
   "status": "proved",
   "theorems": [
    "Verif.Algo.C54_reverse_random_access",
    "Verif.Algo.C54_reverse_bidirectional",
    "Verif.Views.C54_batched"
   ],
   "note": ""
  },
  {
   "property": "C55",
   "status": "proved",
   "theorems": [
    "Verif.Bounded.C55_round_up_divide"
   ],
   "note": ""
  },
  {
   "property": "C56",
   "status": "proved",
   "theorems": [
    "Verif.Algo.C56_in_place_1",
    "Verif.Algo.C56_in_place_2",
    "Verif.Algo.C56_in_place_3",
    "Verif.Algo.C56_in_place_4",
    "Verif.Algo.C56_in_place_5",
    "Verif.Algo.C56_min_compares_4",
    "Verif.Algo.C56_branchless_4"
   ],
   "note": ""
  },
  {
   "property": "C57",
   "status": "partial",
   "theorems": [
    "Verif.Containers.C57_move_elements",
    "Verif.Containers.C57_exception_violated",
    "Verif.Containers.C57_exception_target",
    "Verif.Containers.C57_append_partial",
    "Verif.Containers.C57_insert_partial",
    "Verif.Containers.C57_append_into_capacity_partial",
    "Verif.Containers.C57_construct_partial",
    "Verif.Containers.C57_target",
    "Verif.Containers.C57_append_into_capacity_target",
    "Verif.Containers.C57_construct_target",
    "Verif.Containers.C57_construct_static_violated"
   ],
   "note": "Append, append into capacity, insert and construction from an rvalue container (including dynamic arrays, C59_from_rvalue_partial) are proved when no element operation throws; whatever throws, the target is as it was or as specified (C57_target, C57_append_into_capacity_target, C57_construct_target). Violated: an exception after the first element was taken makes the source destroy it again; a static_vector built from an rvalue static_vector whose size always fits is empty and leaks."
  },
  {
   "property": "C58",
   "status": "partial",
   "theorems": [
    "Verif.Lists.C58_history_partial",
    "Verif.Lists.C58_equal_partial",
    "Verif.Lists.C58_without_moves",
    "Verif.Lists.C58_moved_from_violated",
    "Verif.Lists.C58_move_assign_violated",
    "Verif.Lists.C58_failed_assignment_violated"
   ],
   "note": "Every history is proved for the lists that were not moved from while non-empty and whose copy assignment did not throw half-way; for programs without moves and without throwing copy assignments it holds for every list. Violated: a moved-from list keeps its old size() (resize then is undefined behaviour, two empty lists compare unequal), and a copy assignment that throws leaves the old size()."
  },
  {
   "property": "C59",
   "status": "partial",
   "theorems": [
    "Verif.Containers.C59_history_partial",
    "Verif.Containers.C59_destroyed_once",
    "Verif.Containers.C59_assign_outcome",
    "Verif.Containers.C59_moved_from_violated",
    "Verif.Containers.C59_from_rvalue_partial",
    "Verif.Containers.C59_assign_rvalue_partial"
   ],
   "note": "Every history is proved safe and leak-free, with contents and size() as specified for every array that was not moved from while it had elements; construction from and assignment of rvalue containers when no element operation throws. Violated: after its elements were moved away, size(), iteration and copying of an array fail an assertion (the size is kept while the pointer is reset)."
  },
  {
   "property": "C60",
   "status": "partial",
   "theorems": [
    "Verif.Containers.C60_append",
    "Verif.Containers.C60_append_itself",
    "Verif.Containers.C60_resize",
    "Verif.Containers.C60_insert_partial",
    "Verif.Containers.C60_insert_room_violated",
    "Verif.Containers.C60_std_insert",
    "Verif.Containers.C60_std_insert_one",
    "Verif.Containers.C60_insert_violated"
   ],
   "note": "append and resize are proved for all references; insert for references before the position or with a reallocation; the std-style insert functions always. Violated: containers::insert in place with a reference to an element at or after the position reads an element that was moved away or inserts the neighbour (proved for every container and position). The repository documents this restriction for lazy_insert and emplace and has a TODO about it for insert of a value."
  },
  {
   "property": "C61",
   "status": "partial",
   "theorems": [
    "Verif.Views.C61_generate_n",
    "Verif.Views.C61_generate",
    "Verif.Views.C61_generate_until",
    "Verif.Views.C61_transform_non_idempotent",
    "Verif.Views.C61_remove_none_partial",
    "Verif.Views.C61_remove_none_generate_n",
    "Verif.Views.C61_filter_violated",
    "Verif.Views.C61_remove_none_violated",
    "Verif.Views.C61_generate_n_order_violated",
    "Verif.Views.C61_indexed_generate_n",
    "Verif.Views.C61_repeat_n"
   ],
   "note": "generate, generate_n, generate_until, transform_non_idempotent, indexed_generate_n and repeat_n are proved in full, remove_none for ranges whose end does not depend on obtaining an element. Violated: filter obtains every kept element twice and shows the second one; remove_none over generate_until can lose the last element; iterators of generate_n that are not at the end compare greater than the end. Comparing with the end is assumed to have no effect."
  },
  {
   "property": "C62",
   "status": "partial",
   "theorems": [
    "Verif.Containers.C62_insert",
    "Verif.Containers.C62_erase",
    "Verif.Containers.C62_push_back",
    "Verif.Lists.C62_list_insert_partial",
    "Verif.Lists.C62_list_insert_violated",
    "Verif.Lists.C62_list_erase",
    "Verif.Lists.C62_list_push_back",
    "Verif.Lists.C62_list_push_front",
    "Verif.Lists.C62_forward_insert_after"
   ],
   "note": "Proved for insert, erase and push_back of vector, static_vector, sbo_vector (any lawful contiguous container), with and without reallocation, and for erase, push_back, push_front of bidirectional_linked_list and lazy_insert_after of forward_linked_list. Violated by every insert or emplace of at least one element into bidirectional_linked_list (and so the list in the style of the standard library): the returned iterator is the position that was passed, which is after the new elements (C62_list_insert_violated)."
  },
  {
   "property": "C63",
   "status": "partial",
   "theorems": [
    "Verif.Containers.C63_vector_reverse_partial",
    "Verif.Containers.C63_vector_reverse_violated",
    "Verif.Lists.C63_list_reverse_partial",
    "Verif.Lists.C63_list_reverse_violated",
    "Verif.Lists.C63_list_algorithms_violated"
   ],
   "note": "Reverse iteration is right only for empty containers: rbegin() is made from begin() and rend() from end(), so for every non-empty vector, inplace_vector and list the first dereference is undefined (C63_vector_reverse_violated, C63_list_reverse_violated). list::reverse, sort, merge and unique do nothing (they are marked TODO in the repository; C63_list_algorithms_violated)."
  },
  {
   "property": "C64",
   "status": "proved",
   "theorems": [
    "Verif.Containers.C64_try_push_back",
    "Verif.Containers.C64_unchecked_push_back",
    "Verif.Containers.C64_reserve"
   ],
   "note": "try_push_back, unchecked_push_back and reserve on the model of static_vector."
  },
  {
   "property": "C65",
   "status": "partial",
   "theorems": [
    "Verif.Bounded.C65_whitespace",
    "Verif.Bounded.C65_write",
    "Verif.Bounded.C65_read_partial",
    "Verif.Bounded.C65_read_word",
    "Verif.Bounded.C65_round_trip",
    "Verif.Bounded.C65_read_several",
    "Verif.Bounded.C65_read_several_throws",
    "Verif.Bounded.C65_read_end_violated",
    "Verif.Bounded.C65_read_minus_violated"
   ],
   "note": "Writing, reading of numbers, the round trip of any sequence of values, and inputs that are not numbers are proved. An expression that reads several variables reads them in order, and one that throws ends it with the earlier ones read (C65_read_several, C65_read_several_throws). Reading at the end of the input is proved to read an uninitialised variable for every type (C65_read_end_violated), so every `while (in >> x)` loop ends in undefined behaviour (up to C++23) or changes the variable to an arbitrary value. A negative number read into a type with an unsigned underlying type of 32 or more bits is accepted with a wrong value (C65_read_minus_violated). The standard streams are assumed as written in the model."
  },
  {
   "property": "C66",
   "status": "proved",
   "theorems": [
    "Verif.Containers.C66_read",
    "Verif.Containers.C66_read_nothing",
    "Verif.Containers.C66_no_loss",
    "Verif.Containers.C66_round_trip",
    "Verif.Containers.C66_eof"
   ],
   "note": "The loop over the stream buffer with memory exhaustion at any point. The difference to `std::string`, that reading the last word does not set eofbit, is recorded as a theorem (C66_eof). The standard streams are assumed as written in the model; the string is its sequence of characters, which C25 and C27 justify."
  },
  {
   "property": "C67",
   "status": "partial",
   "theorems": [
    "Verif.Bounded.C67_literal_exact",
    "Verif.Bounded.C67_literal_partial",
    "Verif.Bounded.C67_literal_prefix",
    "Verif.Bounded.C67_literal_overflow_violated",
    "Verif.Bounded.C67_literal_octal_violated"
   ],
   "note": "Proved for decimal literals that are representable in the widest unsigned type, with any digit separators; hexadecimal and binary literals are proved to be rejected. Octal literals are read as decimal (C67_literal_octal_violated) and larger decimal literals are silently reduced modulo 2^W (C67_literal_overflow_violated)."
  },
  {
   "property": "C68",
   "status": "partial",
   "theorems": [
    "Verif.Bounded.C68_add_exact",
    "Verif.Bounded.C68_add_accepted",
    "Verif.Bounded.C68_mul_exact_partial",
    "Verif.Bounded.C68_div_exact",
    "Verif.Bounded.C68_div_unsigned_rejected",
    "Verif.Bounded.C68_mod_exact_partial",
    "Verif.Bounded.C68_mod_violated",
    "Verif.Bounded.C68_and_exact_partial",
    "Verif.Bounded.C68_shift_builtin_rejected",
    "Verif.Bounded.C68_shl_exact_partial",
    "Verif.Bounded.C68_shr_exact_partial",
    "Verif.Bounded.C68_sub_from_exact",
    "Verif.Bounded.C68_sub_exact_partial",
    "Verif.Bounded.C68_sub_narrow",
    "Verif.Bounded.C68_sub_violated",
    "Verif.Bounded.C68_sub_unsigned_violated",
    "Verif.Bounded.C68_compound_builtin_partial",
    "Verif.Bounded.C68_compound_builtin_violated",
    "Verif.Bounded.C68_compound_mixed",
    "Verif.Bounded.C68_byte_shift_partial",
    "Verif.Bounded.C68_byte_shift_accepted"
   ],
   "note": "Addition, division, subtraction from a built-in integer and compound assignment to a bounded variable are proved; multiplication, modulus, bitwise and and shifts under the conditions of C02, C05, C07 and C08. Subtraction of a built-in integer is proved for types narrower than int and for every value with a representable negation; for an unsigned type of 32 or more bits the result is proved to be too large by 2^bits for every value but zero (C68_sub_unsigned_violated), because the generic operator negates the built-in operand. Division by an unsigned built-in integer and shifts by any built-in count are proved never to compile. Compound assignment to a built-in variable silently wraps (C68_compound_builtin_violated). Byte shifts by 32 or more are undefined. The generic minus and the compound operators are those of the external `operators` module, assumed to be `lhs + -rhs` and `x = x op y`."
  },
  {
   "property": "C69",
   "status": "partial",
   "theorems": [
    "Verif.Scope.C69_programs",
    "Verif.Scope.C69_exactly_once",
    "Verif.Scope.C69_fail_violated"
   ],
   "note": "Proved for every program with nested scopes (C69_programs), and for objects whose lifetimes are not nested: each function runs at most once, exactly if the guard responsible for it is destroyed (C69_exactly_once). For a guard for failure whose lifetime is not nested in the propagation of an exception the property is false in both directions (C69_fail_violated), because the numbers of uncaught exceptions are compared for equality."
  },
  {
   "property": "C70",
   "status": "partial",
   "theorems": [
    "Verif.InplaceFunction.C70_value_semantics",
    "Verif.InplaceFunction.C70_tombstone_partial",
    "Verif.InplaceFunction.C70_null_violated",
    "Verif.InplaceFunction.C70_small_capacity_rejected"
   ],
   "note": "The value semantics are proved for every history (C70_value_semantics), both representations. The distinction from the empty state is proved for everything but null pointers to functions; a wrapper of capacity 0 made from one is the empty state (C70_null_violated). Pointers to functions pass the constraint for capacities from 1 to 7 but do not compile (C70_small_capacity_rejected). A trivially copyable callable is its bytes together with a function on them."
  },
  {
   "property": "C71",
   "status": "partial",
   "theorems": [
    "Verif.Maps.C71_flat_map",
    "Verif.Maps.C71_linear_map",
    "Verif.Maps.C71_same_observations",
    "Verif.Maps.C71_room",
    "Verif.Maps.C71_rvalue",
    "Verif.Maps.C71_flat_multimap",
    "Verif.Maps.C71_std_multimap_violated"
   ],
   "note": "Proved for flat_map, linear_map and flat_multimap over every history, with their observational equivalence, for rvalues, and for the bound on the size. Multimaps of the standard library, which keyed_insert supports, have a member function find, and keyed_erase removes only one of their elements (C71_std_multimap_violated)."
  },
  {
   "property": "C72",
   "status": "partial",
   "theorems": [
    "Verif.Strings.C72_conversions",
    "Verif.Strings.C72_convertible",
    "Verif.Strings.C72_literals",
    "Verif.Strings.C72_pointer",
    "Verif.Strings.C72_equal",
    "Verif.Strings.C72_char_value",
    "Verif.Strings.C72_order",
    "Verif.Strings.C72_order_same_partial",
    "Verif.Strings.C72_comparable",
    "Verif.Strings.C72_hash",
    "Verif.Strings.C72_order_violated"
   ],
   "note": "Proved for all conversions, literals, equality and hashes. The order is by the values of the bytes for comparisons made by the standard library and by the values of char for those made by this library. These agree where char is unsigned or all characters are below 128 (C72_order_same_partial). Where char is signed the order depends on the types: two equal strings are on different sides of a third one (C72_order_violated)."
  },
  {
   "property": "C73",
   "status": "partial",
   "theorems": [
    "Verif.Bounded.C73_value",
    "Verif.Bounded.C73_two_partial",
    "Verif.Bounded.C73_mixed",
    "Verif.Bounded.C73_same_type",
    "Verif.Bounded.C73_generic",
    "Verif.Bounded.C73_generic_lvalues",
    "Verif.Bounded.C73_lvalues_violated",
    "Verif.Bounded.C73_sizes_violated",
    "Verif.Bounded.C73_rvalues_violated"
   ],
   "note": "Proved for all types other than bounded integers, for one or two bounded integers, and for any number of bounded integers of the same type and value category. An lvalue and an rvalue of the same type give a copy, or a constant reference where the compiler lets it bind (C73_mixed). Violated for three or more bounded integers of different types: a temporary object of the variadic function is returned by reference (C73_lvalues_violated), which also happens for the sizes of three ranges in zip (C73_sizes_violated). Two rvalues of the same type of bounded integers give a reference, unlike other types (C73_rvalues_violated)."
  },
  {
   "property": "C74",
   "status": "partial",
   "theorems": [
    "Verif.Iter.C74_programs_partial",
    "Verif.Iter.C74_difference_violated",
    "Verif.Iter.C74_default_violated"
   ],
   "note": "Proved for all programs over ranges with fewer than 2 ^ 63 elements. Violated for every larger range: the distance is cut to std::ptrdiff_t without a check (C74_difference_violated); violated for forward iterators that can be default constructed: wrapping takes the default constructor away (C74_default_violated). The wrapped iterators are modelled as contiguous_iterator; conversions from iterator to const iterator are not modelled."
  },
  {
   "property": "C75",
   "status": "proved",
   "theorems": [
    "Verif.Containers.C75_addresses",
    "Verif.Containers.C75_history",
    "Verif.Containers.C75_move_swap",
    "Verif.Lists.C75_list_history",
    "Verif.Lists.C75_forward_history"
   ],
   "note": "Contiguous containers: one operation (C75_addresses), histories (C75_history), moves and swaps of vectors (C75_move_swap). Lists: histories (C75_list_history, C75_forward_history). The histories exclude the calls that are undefined by C25-C28, C31, C32."
  },
  {
   "property": "C76",
   "status": "proved",
   "theorems": [
    "Verif.Containers.C76_amortised"
   ],
   "note": "The cost is observed from outside (the storage is another one afterwards). Histories exclude the calls that are undefined by C25-C28; ranges of unknown size are appended by single push_backs and are covered as such; assignment of trivially copyable elements discards the old elements instead of moving them and is not counted."
  },
  {
   "property": "C77",
   "status": "proved",
   "theorems": [
    "Verif.Algo.C77_find_if",
    "Verif.Algo.C77_find_if_not",
    "Verif.Algo.C77_find_last_if",
    "Verif.Algo.C77_all",
    "Verif.Algo.C77_any",
    "Verif.Algo.C77_none",
    "Verif.Algo.C77_count_if",
    "Verif.Algo.C77_mismatch",
    "Verif.Algo.C77_min_element",
    "Verif.Algo.C77_max_element",
    "Verif.Algo.C77_is_sorted",
    "Verif.Algo.C77_is_partitioned",
    "Verif.Algo.C77_partition_point",
    "Verif.Algo.C77_lower_bound",
    "Verif.Algo.C77_upper_bound",
    "Verif.Algo.C77_equal_range",
    "Verif.Algo.C77_binary_search",
    "Verif.Algo.C77_partition_point_optimal",
    "Verif.Algo.C77_partition_point_attained"
   ],
   "note": "Function objects are decision procedures with state; exceptions end the run. Copies of a function object are taken to share their state."
  },
  {
   "property": "C78",
   "status": "partial",
   "theorems": [
    "Verif.Algo.C78_partition",
    "Verif.Algo.C78_sort_exactly_in_place",
    "Verif.Algo.C78_sort_exactly_relocate",
    "Verif.Algo.C78_sort_exactly",
    "Verif.Algo.C78_new_sort",
    "Verif.Algo.C78_iterator_partition",
    "Verif.Algo.C78_fixed_size_merge_sort_violated",
    "Verif.Algo.C78_merge_relocate_violated",
    "Verif.Algo.C78_chunked_insertion_sort_violated",
    "Verif.Algo.C78_sort_exactly_inconsistent_violated",
    "Verif.Algo.C78_iterator_partition_inconsistent_violated"
   ],
   "note": "The merges lose elements if the comparison throws, and the branchless routine for three elements and iterator_partition have undefined behaviour for function objects that contradict themselves: C78_fixed_size_merge_sort_violated, C78_merge_relocate_violated, C78_chunked_insertion_sort_violated, C78_sort_exactly_inconsistent_violated, C78_iterator_partition_inconsistent_violated. For new_sort the standard heap functions are assumed to leave all elements in the range when the comparison throws; askingSort shows the assumption can be met. Moves and swaps of elements are taken not to throw."
  },
  {
   "property": "C79",
   "status": "proved",
   "theorems": [
    "Verif.Algo.C79_new_sort"
   ],
   "note": "The comparisons of the standard heap functions are a parameter of the bound. Comparisons of assertions (is_sorted at the end) are counted."
  },
  {
   "property": "C80",
   "status": "partial",
   "theorems": [
    "Verif.Algo.C80_unique_contained",
    "Verif.Algo.C80_unique_copy_contained",
    "Verif.Algo.C80_unique_merge_copy_contained",
    "Verif.Algo.C80_unique_inplace_merge_contained",
    "Verif.Algo.C80_unique",
    "Verif.Algo.C80_erase_if",
    "Verif.Algo.C80_erase_if_returns",
    "Verif.Algo.C80_unique_inplace_merge_violated"
   ],
   "note": "unique_inplace_merge loses elements of the first range if the comparison throws: C80_unique_inplace_merge_violated. Assignments of elements are taken not to throw."
  },
  {
   "property": "C81",
   "status": "partial",
   "theorems": [
    "Verif.Maps.C81_flat_insert_allocations",
    "Verif.Maps.C81_multi_insert_allocations",
    "Verif.Maps.C81_linear_insert_allocations",
    "Verif.Maps.C81_append_allocations",
    "Verif.Maps.C81_append_one_by_one",
    "Verif.Maps.C81_flat_find",
    "Verif.Maps.C81_flat_lookup",
    "Verif.Maps.C81_flat_insert",
    "Verif.Maps.C81_multi_insert",
    "Verif.Maps.C81_linear_find",
    "Verif.Maps.C81_linear_insert",
    "Verif.Maps.C81_returns",
    "Verif.Maps.C81_returns_ranges",
    "Verif.Maps.C81_allocations",
    "Verif.Maps.C81_append_sized",
    "Verif.Maps.C81_linear_insert_range",
    "Verif.Maps.C81_linear_still_found",
    "Verif.Maps.C81_flat_insert_range_violated",
    "Verif.Maps.C81_flat_insert_range_loses_violated",
    "Verif.Maps.C81_flat_insert_range_alloc_violated",
    "Verif.Maps.C81_flat_insert_unsized_violated",
    "Verif.Maps.C81_flat_upsert_violated",
    "Verif.Maps.C81_linear_insert_range_violated"
   ],
   "note": "An exception while a range is inserted leaves a flat_map unsorted or without an element, and a linear_map with a key twice: C81_flat_insert_range_violated, C81_flat_insert_range_loses_violated, C81_flat_insert_range_alloc_violated, C81_flat_insert_unsized_violated, C81_flat_upsert_violated, C81_linear_insert_range_violated. Of the sort that is called before the merge (ska_sort of one element) the witnesses assume that it does nothing. If nothing throws, the operations do what C33 and C35 say (C81_returns, C81_returns_ranges), and they allocate no more than the growth of the container requires (C81_allocations). Moves of elements are taken not to throw."
  },
  {
   "property": "C82",
   "status": "partial",
   "theorems": [
    "Verif.Bytes.C82_span",
    "Verif.Bytes.C82_span_backwards",
    "Verif.Bytes.C82_span_write",
    "Verif.Bytes.C82_span_index_violated",
    "Verif.Bytes.C82_bytes",
    "Verif.Bytes.C82_write_byte",
    "Verif.Bytes.C82_copy",
    "Verif.Bytes.C82_bytes_size"
   ],
   "note": "The index of a span is not checked: every index from the size up to the size of the greatest array is accepted, and reads an element outside of the span or is undefined (C82_span_index_violated). Alignment and the aliasing rules are not modelled."
  },
  {
   "property": "C83",
   "status": "proved",
   "theorems": [
    "Verif.ToArray.C83_to_array",
    "Verif.ToArray.C83_to_array_size",
    "Verif.ToArray.C83_make_array_n"
   ],
   "note": "Whether the elements of an rvalue are moved or copied is not modelled. Initialisers in braces are evaluated from left to right, as the language says."
  },
  {
   "property": "C84",
   "status": "proved",
   "theorems": [
    "Verif.Views.Lifetime.C84_usable",
    "Verif.Views.Lifetime.C84_elements",
    "Verif.Views.Lifetime.C84_stable",
    "Verif.Views.Lifetime.C84_stable_elements",
    "Verif.Views.Lifetime.C84_small",
    "Verif.Views.Lifetime.C84_ends",
    "Verif.Views.Lifetime.C84_make"
   ],
   "note": "Functions are pure and total and do not change the type of the elements; containers do not change their size (C76 says when addresses stay valid). transform of a transform and filter are modelled, the other views keep no functions or are like one of these. A view that was moved from is taken not to exist any more. `reversed` of an rvalue reversed view of a const container copies the container, and of a non-const lvalue does not compile; this is not modelled."
  },
  {
   "property": "C85",
   "status": "partial",
   "theorems": [
    "Verif.Lists.C85_list_append",
    "Verif.Lists.C85_list_append_itself_violated",
    "Verif.Lists.C85_forward_append_after",
    "Verif.Lists.C85_forward_append_after_itself_violated"
   ],
   "note": "Proved if the range belongs to another list, or ends before the end of the list (append), or if the position is neither in the range nor its last element (append_after). Otherwise the call never ends, and the list grows for ever: C85_list_append_itself_violated (append(list, list)) and C85_forward_append_after_itself_violated. No exceptions; C31 and C32 have those, with sources that are not in the list."
  },
  {
   "property": "C86",
   "status": "partial",
   "theorems": [
    "Verif.Containers.C86_erase_partial",
    "Verif.Containers.C86_erase_overwritten",
    "Verif.Containers.C86_erase_cases",
    "Verif.Containers.C86_erase_violated",
    "Verif.Lists.C86_list_remove_partial",
    "Verif.Lists.C86_list_remove_violated"
   ],
   "note": "Lists: proved if the element is the last one, is in another list, or is not equal to itself (C86_list_remove_partial); undefined in all other cases (C86_list_remove_violated). Arrays: proved if not more elements stay than are before the element (C86_erase_partial); otherwise the element is overwritten by some y, and the exact result is proved (C86_erase_overwritten, C86_erase_cases), which is wrong whenever the element or y occurs again behind y (C86_erase_violated). The function erase(inplace_vector &, value) is not exported by its module; it calls erase_if with the same arguments."
  },
  {
   "property": "C87",
   "status": "partial",
   "theorems": [
    "Verif.Algo.Radix.C87_ska_sort",
    "Verif.Algo.C87_double_buffered_partial",
    "Verif.Algo.C87_double_buffered_counting",
    "Verif.Algo.C87_double_buffered_violated",
    "Verif.Algo.C87_ska_sort_partial"
   ],
   "note": "ska_sort: proved for every call that throws, with other objects around the range and for key functions with a state (C87_ska_sort; C87_ska_sort_partial says it of the state at each call), relative to a std::sort that keeps the elements when a comparison throws (the standard does not promise it). double_buffered_ska_sort: false, since it moves elements to the buffer while it calls the key function (C87_double_buffered_violated); what holds is that each element is in a place of its own in the source or in the buffer (C87_double_buffered_partial), and that the calls up to the size of the range leave everything in place (C87_double_buffered_counting). Moves and swaps do not throw, and keys do not change between calls."
  },
  {
   "property": "C88",
   "status": "partial",
   "theorems": [
    "Verif.Bounded.C88_add",
    "Verif.Bounded.C88_sub",
    "Verif.Bounded.C88_neg",
    "Verif.Bounded.C88_mul_partial",
    "Verif.Bounded.C88_div",
    "Verif.Bounded.C88_shl_partial",
    "Verif.Bounded.C88_shr_partial",
    "Verif.Bounded.C88_abs",
    "Verif.Bounded.C88_minmax",
    "Verif.Bounded.C88_clamp",
    "Verif.Bounded.C88_log",
    "Verif.Bounded.C88_pow",
    "Verif.Bounded.C88_and_violated",
    "Verif.Bounded.C88_round_up_divide_violated"
   ],
   "note": "Proved for + - (both), /, abs, min, max, clamp, log and pow (C88_add, C88_sub, C88_neg, C88_div, C88_abs, C88_minmax, C88_clamp, C88_log, C88_pow), for *, << and >> for all types for which the operators are exact (C88_mul_partial, C88_shl_partial, C88_shr_partial; the exact conditions are those of C02_mul_types, C07_shl_types and C07_shr_types). For % see C06. False for & (C88_and_violated; a comment in the source says so) and for round_up_divide (C88_round_up_divide_violated)."
  },
  {
   "property": "C89",
   "status": "proved",
   "theorems": [
    "Verif.Algo.Mem.C89_copy",
    "Verif.Algo.Mem.C89_copy_needs",
    "Verif.Algo.Mem.C89_copy_inside",
    "Verif.Algo.Mem.C89_copy_backward",
    "Verif.Algo.Mem.C89_copy_backward_inside",
    "Verif.Algo.Mem.C89_copy_truncate",
    "Verif.Algo.Mem.C89_relocate",
    "Verif.Algo.Mem.C89_relocate_inside",
    "Verif.Algo.Mem.C89_relocate_backward",
    "Verif.Algo.Mem.C89_relocate_backward_inside",
    "Verif.Algo.Mem.C89_copy_throws",
    "Verif.Algo.Mem.C89_copy_truncate_throws",
    "Verif.Algo.Mem.C89_copy_backward_throws"
   ],
   "note": "Ranges given as lvalues. The contents after a call with overlap in the wrong direction are proved too (C89_copy_inside, C89_copy_backward_inside), and relocation in the wrong direction is proved undefined (C89_relocate_inside, C89_relocate_backward_inside). Throwing assignments: C89_copy_throws, C89_copy_truncate_throws, C89_copy_backward_throws; relocation is noexcept in the library."
  },
  {
   "property": "C90",
   "status": "partial",
   "theorems": [
    "Verif.Tv.C90_variant_emplace_partial",
    "Verif.Tv.C90_variant_emplace_undefined",
    "Verif.Tv.C90_variant_emplace_iff",
    "Verif.Tv.C90_variant_assign_same",
    "Verif.Tv.C90_variant_assign_other_partial",
    "Verif.Tv.C90_variant_assign_undefined",
    "Verif.Tv.C90_optional_emplace_partial",
    "Verif.Tv.C90_optional_emplace_undefined",
    "Verif.Tv.C90_optional_assign",
    "Verif.Tv.C90_optional_assign_empty",
    "Verif.Tv.C90_nullable_emplace_partial",
    "Verif.Tv.C90_nullable_emplace_undefined",
    "Verif.Tv.C90_nullable_emplace_empties",
    "Verif.Tv.C90_nullable_assign",
    "Verif.Tv.C90_nullable_assign_part",
    "Verif.Tv.C90_variant_assign_violated",
    "Verif.Tv.C90_nullable_emplace_violated"
   ],
   "note": "Violated: if the construction is noexcept (most moves), a variant (and an optional without spare representation) destroys its value before it reads the argument (C90_variant_emplace_undefined, C90_variant_assign_violated); an optional with a spare representation always does, and insert(optional, *optional) of an integer makes it empty (C90_nullable_emplace_violated). Proved for arguments from elsewhere, for constructors that are not noexcept, and for every assignment of the alternative that is held already, where the assignment operator of the alternative is given."
  },
  {
   "property": "C91",
   "status": "proved",
   "theorems": [
    "Verif.Tv.C91_optional_reference_history",
    "Verif.Tv.C91_rebind_changes_no_object",
    "Verif.Tv.C91_dereference_iff"
   ],
   "note": ""
  },
  {
   "property": "C92",
   "status": "partial",
   "theorems": [
    "Verif.Algo.Swapping.C92_new_sort",
    "Verif.Algo.Radix.C92_ska_sort",
    "Verif.Algo.Swapping.C92_sort_exactly",
    "Verif.Algo.Swapping.C92_partition",
    "Verif.Algo.Swapping.C92_iterator_partition",
    "Verif.Algo.C92_reverse_random_access_throws",
    "Verif.Algo.C92_reverse_bidirectional_throws",
    "Verif.Algo.C92_reverse_no_throw",
    "Verif.Containers.C92_static_swap",
    "Verif.Containers.C92_static_swap_throws",
    "Verif.Containers.C92_inplace_swap_terminates",
    "Verif.Containers.C92_inplace_swap_violated",
    "Verif.Maps.Swapping.C92_linear_map_insert"
   ],
   "note": "Violated by inplace_vector, whose swap is declared noexcept for all elements: the exception terminates the program (C92_inplace_swap_violated). Proved for reverse (random access and bidirectional), partition (also forward), iterator_partition, sorting two to five elements in place (C92_sort_exactly), static_vector and the insertion of a range into a linear_map (C92_linear_map_insert). iterator_partition needs a comparison that does not contradict itself (C78). std::swap_ranges is assumed to exchange the pairs in order. new_sort of ranges of any length (C92_new_sort) for a comparison that is a strict weak order where it does not throw; of std::make_heap and std::sort_heap it is assumed that they sort or, if they throw, leave the elements alive. ska_sort of ranges of any length with other objects around and a key function that may throw as well (C92_ska_sort); of std::sort it is assumed that it sorts or, if something throws in it, leaves the elements alive. Missing: what the heap functions and std::sort leave of the values."
  },
  {
   "property": "C93",
   "status": "proved",
   "theorems": [
    "Verif.Tv.C93_member_lawful",
    "Verif.Tv.C93_static_vector_lawful",
    "Verif.Tv.C93_static_vector_spare",
    "Verif.Tv.C93_variant_lawful",
    "Verif.Tv.C93_variant_spare",
    "Verif.Tv.C93_optional_static_vector",
    "Verif.Tv.C93_optional_variant"
   ],
   "note": "For a widest built-in integer of more than 64 bits, as in C19. The storage of a vector is modelled as which object is at which position. With a capacity of zero, or a single alternative, there is no spare representation and the optional uses an index of its own; that case is included."
  },
  {
   "property": "C94",
   "status": "partial",
   "theorems": [
    "Verif.Views.C94_distance",
    "Verif.Views.C94_linear_size",
    "Verif.Views.C94_linear_size_default",
    "Verif.Views.C94_is_empty",
    "Verif.Views.C94_count_if",
    "Verif.Views.C94_count_if_zero_size_violated",
    "Verif.Views.C94_advance_forward",
    "Verif.Views.C94_advance_forward_negative",
    "Verif.Views.C94_advance",
    "Verif.Views.C94_next_prev",
    "Verif.Views.C94_mutable_iterator"
   ],
   "note": "Proved for all ranges whose difference type has more than one value, and conversely that the counter leaves its type exactly when the number does not fit. Violated for ranges that are empty by their type: count_if and count of an array<T, 0> do not compile, since the counter is an integer<0, 0> that cannot be incremented. Offsets and differences are bounded integers; those of built-in type (legacy iterators) are not modelled, nor offsets whose bounds come within a factor of two of the widest type's."
  },
  {
   "property": "C95",
   "status": "partial",
   "theorems": [
    "Verif.Containers.C95_growing_throws",
    "Verif.Containers.C95_reserve",
    "Verif.Containers.C95_assign",
    "Verif.Containers.C95_construct_violated",
    "Verif.Containers.C95_construct_sbo_violated",
    "Verif.Containers.C95_assign_within",
    "Verif.Containers.C95_assign_trivial_violated",
    "Verif.Containers.C95_push_back_violated"
   ],
   "note": "append, insert, resize and reserve are proved for vector and sbo_vector. Violated: construction from a sized range and vector(count, value), assign of trivially copyable elements, and push_back to a full vector whose capacity cannot be doubled are undefined (each proved for all states and sources). assign of other elements throws after it has overwritten the existing elements (C95_assign). Which exception is thrown is not modelled."
  },
  {
   "property": "C96",
   "status": "partial",
   "theorems": [
    "Verif.Containers.C96_history_partial",
    "Verif.Containers.C96_compare",
    "Verif.Containers.C96_search",
    "Verif.Containers.C96_sort_search",
    "Verif.Containers.C96_sort_unique",
    "Verif.Containers.C96_unique_ska_sort_partial",
    "Verif.Containers.C96_reverse_twice",
    "Verif.Containers.C96_list_range",
    "Verif.Containers.C96_list_end",
    "Verif.Containers.C96_forward_list_range",
    "Verif.Containers.C96_forward_list_end",
    "Verif.Containers.C96_list_equal"
   ],
   "note": "Comparison, search, reverse, partition, sort, ska_sort, copies inside the container and unique are proved for every container state. C96_history_partial needs the preconditions of the container operations of C25, C28 and C30 (where the code falls short of them); after ska_sort the elements are known to be sorted only where C42 proves it, and C96_unique_ska_sort_partial is for these cases. std::sort and the heap functions of the standard library are parameters; merges on containers are in C100."
  },
  {
   "property": "C97",
   "status": "partial",
   "theorems": [
    "Verif.Maps.C97_flat_map_equal",
    "Verif.Maps.C97_flat_map_history",
    "Verif.Maps.C97_linear_map_partial",
    "Verif.Maps.C97_order",
    "Verif.Maps.C97_decides",
    "Verif.Maps.C97_insertion_order_violated",
    "Verif.Maps.C97_reinsertion_violated",
    "Verif.Maps.C97_equivalent_keys_violated"
   ],
   "note": "Proved for flat maps whose order tells all keys apart (C97_flat_map_history, C97_flat_map_equal for every order, C97_order). It is false for linear_map, which compares the elements in the order in which they were inserted (C97_insertion_order_violated, C97_reinsertion_violated; C97_linear_map_partial says exactly when two linear maps are equal), and for flat maps with keys that the order does not tell apart (C97_equivalent_keys_violated)."
  },
  {
   "property": "C98",
   "status": "partial",
   "theorems": [
    "Verif.Bounded.C98_operator_exactly",
    "Verif.Bounded.C98_expression_partial",
    "Verif.Bounded.C98_program_partial",
    "Verif.Bounded.C98_same_end_partial",
    "Verif.Bounded.C98_never_throws_partial",
    "Verif.Bounded.C98_excluded_types_violated"
   ],
   "note": "Proved for all programs whose operators do not have operands of certain types (C98_program_partial, C98_same_end_partial, C98_never_throws_partial, C98_expression_partial). The excluded types are exactly those for which some operator is wrong for some values (C98_operator_exactly); with them it is false (C98_excluded_types_violated). Built-in operands, check_in_range and conversions to built-in types are in the programs of C115."
  },
  {
   "property": "C99",
   "status": "partial",
   "theorems": [
    "Verif.Containers.C99_session_partial",
    "Verif.Containers.C99_sequence_partial",
    "Verif.Containers.C99_independent_partial"
   ],
   "note": "Proved for all programs that keep to the preconditions of the operations, which are stronger than the documented ones because of C25-C28 (C99_session_partial, C99_sequence_partial, C99_independent_partial). data(), capacity(), addresses and iterators that outlive an operation can be observed and are not in the programs."
  },
  {
   "property": "C100",
   "status": "partial",
   "theorems": [
    "Verif.Maps.C100_step_partial",
    "Verif.Maps.C100_history_partial",
    "Verif.Maps.C100_lookup",
    "Verif.Maps.C100_insert",
    "Verif.Maps.C100_reserved",
    "Verif.Maps.C100_every_key_violated",
    "Verif.Maps.C100_present_keys_violated",
    "Verif.Maps.C100_upsert_violated"
   ],
   "note": "Proved for every history that keeps to the preconditions (C100_step_partial, C100_history_partial, C100_lookup, C100_insert); a map for which its greatest size was reserved has room for every key (C100_reserved). The claim fails because a vector doubles its capacity: a flat_map with three possible keys throws when the third is inserted one by one (C100_every_key_violated) and upsert of three is undefined (C100_upsert_violated); inserting a range of keys that are all present throws if the map is full (C100_present_keys_violated). Assumed: moving an element to itself does not clear it (C33), upsert gives each key once and old keys first (C33); no allocation of the merge or of upsert fails (C81)."
  },
  {
   "property": "C101",
   "status": "partial",
   "theorems": [
    "Verif.Bounded.C101_operators",
    "Verif.Bounded.C101_functions",
    "Verif.Bounded.C101_program",
    "Verif.Bounded.C101_result",
    "Verif.Bounded.C101_invalid_operand",
    "Verif.Bounded.C101_invalid_minimum_violated",
    "Verif.Bounded.C101_invalid_check",
    "Verif.Bounded.C101_mixed",
    "Verif.Bounded.C101_references",
    "Verif.Bounded.C101_pow_log_digits",
    "Verif.Bounded.C101_accumulate",
    "Verif.Bounded.C101_tombstones",
    "Verif.Bounded.C101_to_string"
   ],
   "note": "Nothing throws: C101_operators, C101_functions, C101_program, C101_mixed, C101_references, C101_pow_log_digits, C101_accumulate, C101_tombstones, C101_to_string. Results come from valid operands and are exact: C101_result, C101_invalid_operand, C101_invalid_check. min and max are the exception: they can return an invalid operand without noticing it (C101_invalid_minimum_violated). C101_result is for integers of 64 to 128 bits, and for pairs of types that the operators compute without overflow (C98 says which)."
  },
  {
   "property": "C102",
   "status": "proved",
   "theorems": [
    "Verif.Views.C102_elements",
    "Verif.Views.C102_loop",
    "Verif.Views.C102_equal",
    "Verif.Views.C102_never_throws",
    "Verif.Views.C102_kind"
   ],
   "note": "By induction over the pipeline: C102_elements (what is built has the elements of the list functions, with positions for forward and random access iterators; construction throws exactly for exact drops of too much), C102_loop, C102_equal, C102_never_throws, C102_kind (which pipelines there are and of what kind they are). Every range on the way has at most as many elements as the greatest difference of iterators. Concatenated and zipped views are only used as ranges of which the next element is asked for, so `reversed` and `adjacent` of them are not in the model; functions do not throw."
  },
  {
   "property": "C103",
   "status": "partial",
   "theorems": [
    "Verif.Containers.C103_undefined_range",
    "Verif.Containers.C103_append",
    "Verif.Containers.C103_assign_to_empty",
    "Verif.Containers.C103_insert_partial",
    "Verif.Containers.C103_count_throws",
    "Verif.Containers.C103_undefined_count",
    "Verif.Containers.C103_append_pipeline",
    "Verif.Containers.C103_construct_pipeline",
    "Verif.Containers.C103_insert_pipeline_partial",
    "Verif.Containers.C103_insert_violated"
   ],
   "note": "C103_append, C103_assign_to_empty and C103_insert_partial for every container that satisfies `Lawful` (vector, static_vector, small buffer vector) and every range, which may throw at any point; C103_count_throws for exceptions while counting; C103_append_pipeline, C103_construct_pipeline and C103_insert_pipeline_partial for pipelines of views. Missing: `insert` of a range without size that can be gone through only once, for which the claim is false (C103_insert_violated: insert.cpp 116 uses the range up by counting it); the preconditions of C25-C28 are kept."
  },
  {
   "property": "C104",
   "status": "partial",
   "theorems": [
    "Verif.Containers.C104_program_partial",
    "Verif.Containers.C104_vector_partial",
    "Verif.Containers.C104_inplace_vector_partial",
    "Verif.Containers.C104_insert_nothing_violated"
   ],
   "note": "C104_program_partial for every container that satisfies `Lawful`, C104_vector_partial and C104_inplace_vector_partial from an empty vector. Missing: the preconditions of C25-C28 that the standard does not have remain, among them that an insertion of nothing is at the end: C104_insert_nothing_violated shows that it is undefined at every other position of every vector. Reverse iterators (C63) and insertions of ranges that can be gone through only once (C103) are violated elsewhere and are not in the programs; constructors, assignment and swap of whole vectors are C25-C28 and C75."
  },
  {
   "property": "C105",
   "status": "partial",
   "theorems": [
    "Verif.Lists.C105_program_partial",
    "Verif.Lists.C105_list_program_partial",
    "Verif.Lists.C105_identities",
    "Verif.Lists.C105_iterator_kept",
    "Verif.Lists.C105_moved_from_violated"
   ],
   "note": "C105_program_partial from any memory, C105_list_program_partial from nothing, C105_identities, C105_iterator_kept. Missing: the iterator that `insert` returns is not used by the programs (C62_list_insert_violated), the size of a list that was moved from or whose copy assignment threw (C105_moved_from_violated, C58_failed_assignment_violated), constructions that throw between the first and the last element (C31_failed_copy_violated), a range spliced to where it is (C31_splice_in_place_violated). The splices of `std_containers::list` itself pass a `list` where a `sized_list` is required and cannot be called; those of `sized_list` are modelled."
  },
  {
   "property": "C106",
   "status": "partial",
   "theorems": [
    "Verif.Maps.C106_program_partial",
    "Verif.Maps.C106_empty_map_partial",
    "Verif.Maps.C106_empty_static_map_partial",
    "Verif.Maps.C106_insert_keeps",
    "Verif.Maps.C106_old_key",
    "Verif.Maps.C106_linear_range",
    "Verif.Maps.C106_erase_loop"
   ],
   "note": "C106_program_partial from any map, C106_empty_map_partial and C106_empty_static_map_partial from an empty one, C106_insert_keeps, C106_old_key, C106_linear_range, C106_erase_loop. Missing: `insert` of ranges with equal keys or that cannot be sorted into sorted maps (C33, C69), insertion into a full linear map whose capacity cannot be doubled (C26)."
  },
  {
   "property": "C107",
   "status": "partial",
   "theorems": [
    "Verif.Lists.C107_program_partial",
    "Verif.Lists.C107_forward_list_program_partial",
    "Verif.Lists.C107_identities",
    "Verif.Lists.C107_iterator_kept"
   ],
   "note": "C107_program_partial from any memory, C107_forward_list_program_partial from nothing, C107_identities, C107_iterator_kept. Missing: constructions of lists that throw between the first and the last element (C32_failed_copy_violated); splices within one list, which the code excludes by an assertion."
  },
  {
   "property": "C108",
   "status": "partial",
   "theorems": [
    "Verif.Containers.C108_program_partial",
    "Verif.Containers.C108_vectors_partial",
    "Verif.Containers.C108_one_vector",
    "Verif.Containers.C108_argument_of_another",
    "Verif.Containers.C108_iterators_follow",
    "Verif.Containers.C108_moved_from_violated"
   ],
   "note": "C108_program_partial from any memory, C108_vectors_partial from nothing (with the absence of leaks), C108_iterators_follow for moves and swaps. Missing: a vector that has been moved from may only be assigned to, swapped, copied or destroyed, because push_back on it is undefined (C108_moved_from_violated); the preconditions that C104 has beyond the standard. A range of another vector is read when the function is called, which is the same because the function does not touch the other vector. C108_one_vector says that the calls with one vector are exactly those of C104, C108_argument_of_another what an argument from another vector stands for."
  },
  {
   "property": "C109",
   "status": "proved",
   "theorems": [
    "Verif.Bounded.C109_bit_cast_accepts",
    "Verif.Bounded.C109_bit_cast_exact",
    "Verif.Bounded.C109_pattern_injective",
    "Verif.Bounded.C109_bit_cast_round_trip",
    "Verif.Bounded.C109_hash_exact",
    "Verif.Bounded.C109_hash_respects_equality",
    "Verif.Bounded.C109_format_exact",
    "Verif.Bounded.C109_hash_separates",
    "Verif.Bounded.C109_hash_of_another_type",
    "Verif.Bounded.C109_format_is_to_string",
    "Verif.Bounded.C109_format_round_trip"
   ],
   "note": "The hash and the formatter of the built-in types are parameters. C109_format_is_to_string and C109_format_round_trip assume that the latter writes decimal numbers by default. C109_hash_of_another_type shows that equal values of types with different storage need not have equal hashes."
  },
  {
   "property": "C110",
   "status": "partial",
   "theorems": [
    "Verif.Containers.Several.C110_sbo_vectors_partial",
    "Verif.Containers.Several.C110_static_vectors_partial",
    "Verif.Containers.Several.C110_iterators_follow",
    "Verif.Containers.Several.C110_place",
    "Verif.Containers.Several.C110_static_swap",
    "Verif.Containers.Several.C110_inside_is_gone"
   ],
   "note": "C110_sbo_vectors_partial and C110_static_vectors_partial from nothing; C110_iterators_follow for moves and swaps of large vectors, C110_place for where iterators point, C110_static_swap. Missing: the preconditions that C104 and C30 have beyond the standard (C104_insert_nothing_violated, C30_failed_allocation_violated); elements whose move assignment to themselves does something (static_vector). Vectors of one program are of one type."
  },
  {
   "property": "C111",
   "status": "partial",
   "theorems": [
    "Verif.Maps.Several.C111_program_partial",
    "Verif.Maps.Several.C111_maps_partial",
    "Verif.Maps.Several.C111_others_stay",
    "Verif.Maps.Several.C111_swap",
    "Verif.Maps.Several.C111_union",
    "Verif.Maps.Several.C111_copy_assignment_violated",
    "Verif.Maps.Several.C111_moved_from_violated"
   ],
   "note": "C111_program_partial and C111_maps_partial (from nothing); C111_others_stay, C111_swap, C111_union. False: copy assignment in which assigning an element throws leaves a flat_map whose keys are not in order (C111_copy_assignment_violated), and a map that has been moved from cannot be used like an empty one (C111_moved_from_violated). Missing: those, and what is missing in C106; maps are on vectors."
  },
  {
   "property": "C112",
   "status": "partial",
   "theorems": [
    "Verif.Maps.Small.C112_static_maps_partial",
    "Verif.Maps.Small.C112_sbo_maps_partial",
    "Verif.Maps.Small.C112_others_stay",
    "Verif.Maps.Small.C112_union",
    "Verif.Maps.Small.C112_moved_from",
    "Verif.Maps.Small.C112_static_swap",
    "Verif.Maps.Small.C112_sbo_swap",
    "Verif.Maps.Small.C112_move_assignment_violated",
    "Verif.Maps.Small.C112_copy_assignment_violated"
   ],
   "note": "C112_static_maps_partial and C112_sbo_maps_partial (from nothing); C112_others_stay, C112_union, C112_moved_from, C112_static_swap, C112_sbo_swap. False: move assignment of a static map leaves elements that have been moved from, whose keys need not be in order (C112_move_assignment_violated); copy assignment in which assigning an element throws leaves keys that are not in order (C112_copy_assignment_violated). Missing: those, self move assignment of static maps, and what is missing in C106."
  },
  {
   "property": "C113",
   "status": "partial",
   "theorems": [
    "Verif.Views.Nones.C113_stop",
    "Verif.Views.Nones.C113_programs_partial",
    "Verif.Views.Nones.C113_loop",
    "Verif.Views.Nones.C113_update_loop",
    "Verif.Views.Nones.C113_reference_violated",
    "Verif.Views.Nones.C113_temporary_violated",
    "Verif.Views.Nones.C113_pointers_violated"
   ],
   "note": "C113_programs_partial for all programs, C113_loop, C113_update_loop, C113_stop (the specification of begin and ++). False: if the range shows optionals by value, a reference that an iterator has returned shows the next value when the iterator goes on (C113_reference_violated), and *begin() of a temporary iterator refers to an object that is gone (C113_temporary_violated); if the range shows pointers by value, constructing a value from *it moves from the object that the pointer points to (C113_pointers_violated). Missing: those; changes of stored pointers while iterators are at them; ranges with other iterators than positions (that end() of the range below does not change is assumed); optionals by value that are not trivially destructible, whose iterators cannot be copied (C61 has the single loop); exceptions from dereferencing."
  },
  {
   "property": "C114",
   "status": "proved",
   "theorems": [
    "Verif.Algo.Assigning.C114_alive",
    "Verif.Algo.Assigning.C114_erase_if",
    "Verif.Algo.Assigning.C114_unique"
   ],
   "note": "C114_erase_if and C114_unique; C114_alive for any algorithm that reads, calls and assigns (also unique_copy). erase_if is modelled up to erase_to_end, which is C27. An assignment that throws is taken to change only its two operands."
  },
  {
   "property": "C115",
   "status": "partial",
   "theorems": [
    "Verif.Bounded.Both.C115_expression_partial",
    "Verif.Bounded.Both.C115_program_partial",
    "Verif.Bounded.Both.C115_same_end_partial",
    "Verif.Bounded.Both.C115_excluded_types_violated"
   ],
   "note": "C115_program_partial, C115_expression_partial and C115_same_end_partial, for operands of the types for which the operators are right (C98, C68): C115_excluded_types_violated shows that subtracting an unsigned number is not. The left operand is evaluated first in the model; the language leaves the order open."
  },
  {
   "property": "C116",
   "status": "proved",
   "theorems": [
    "Verif.Views.Calling.C116_view",
    "Verif.Views.Calling.C116_loop",
    "Verif.Views.Calling.C116_retry",
    "Verif.Views.Calling.C116_view_retry",
    "Verif.Views.Calling.C116_chunk_by",
    "Verif.Views.Calling.C116_split",
    "Verif.Views.Calling.C116_split_keep_delimiters"
   ],
   "note": "C116_view (what a view is, whatever its functions do), C116_loop and C116_retry (loops that exceptions stop and that go on), C116_view_retry (both together), C116_chunk_by, C116_split and C116_split_keep_delimiters (chunks and pieces, given by the iterators where they begin and end; the delimiter is an element). No range on the way may have more elements than the greatest difference of iterators (Fits). Increments are written it = it + 1: ++it comes from a library that is not in the repository. Elements of zip_smallest and adjacent are read from left to right in the model; the language leaves the order open. For join_with the ranges that are joined are references to containers: for ranges that are returned by value the iterators share a state in the view, which an increment changes before it throws."
  },
  {
   "property": "C117",
   "status": "proved",
   "theorems": [
    "Verif.Views.Calling.C117_all",
    "Verif.Views.Calling.C117_any",
    "Verif.Views.Calling.C117_none",
    "Verif.Views.Calling.C117_maybe_find_if",
    "Verif.Views.Calling.C117_count_if",
    "Verif.Views.Calling.C117_distance",
    "Verif.Views.Calling.C117_accumulate",
    "Verif.Views.Calling.C117_min_element",
    "Verif.Views.Calling.C117_mismatch",
    "Verif.Views.Calling.C117_equal",
    "Verif.Views.Calling.C117_lexicographical_compare",
    "Verif.Views.Calling.C117_is_partitioned",
    "Verif.Views.Calling.C117_is_sorted",
    "Verif.Views.Calling.C117_partition_point",
    "Verif.Views.Calling.C117_lower_bound",
    "Verif.Views.Calling.C117_upper_bound",
    "Verif.Views.Calling.C117_binary_search",
    "Verif.Views.Calling.C117_max_element",
    "Verif.Views.Calling.C117_starts_with"
   ],
   "note": "One theorem for each algorithm: C117_all, C117_any, C117_none, C117_maybe_find_if, C117_count_if, C117_distance, C117_accumulate, C117_min_element (for a strict weak order), C117_mismatch, C117_equal, C117_lexicographical_compare, C117_max_element, C117_starts_with, C117_is_sorted, C117_is_partitioned, C117_partition_point, C117_lower_bound, C117_upper_bound, C117_binary_search (orders are strict weak orders, ranges that are searched are sorted). The forms for ranges without a size, where the algorithm does not ask for one (the size of a view is then the number of its elements); advance without random access; counts without a bound (their types are in C94). Arguments are read from left to right in the model; the language leaves the order open."
  },
  {
   "property": "C118",
   "status": "partial",
   "theorems": [
    "Verif.Views.Calling.C118_join_by_value_partial",
    "Verif.Views.Calling.C118_join_by_value_violated"
   ],
   "note": "C118_join_by_value_partial is everything but the last sentence, which the code does not satisfy: C118_join_by_value_violated is a loop over join of three ranges whose second call throws; going on at its iterator increments the shared iterator beyond the end of the first range. For ranges that are references to containers the last sentence holds (C116). The iterators are those of an input range, of which no one may rely on copies after an increment; the sentence is about the iterator that was to be incremented."
  },
  {
   "property": "C119",
   "status": "partial",
   "theorems": [
    "Verif.Containers.C119_assign_elements",
    "Verif.Containers.C119_assign_partial",
    "Verif.Containers.C119_append",
    "Verif.Containers.C119_insert_partial",
    "Verif.Containers.C119_construct_partial",
    "Verif.Containers.C119_append_fixed_partial",
    "Verif.Containers.C119_append_single_partial",
    "Verif.Containers.C119_insert_nothing_violated"
   ],
   "note": "C119_append is the whole statement for append to containers that can reserve. C119_append_fixed_partial (append to the others, and their constructors) misses elements for which there is no room in a container that is not empty, unless their number is known and more than the capacity: that is undefined (C28_append_violated). C119_insert_partial misses views without elements that are not inserted at the end, for which the code does not satisfy it (C119_insert_nothing_violated). C119_construct_partial misses more elements than the greatest size and allocations that fail (C25). C119_append_single_partial is the last sentence; it misses a full container whose capacity cannot be doubled (C26_push_back_violated). C119_assign_partial is assign for trivially copyable elements, which empties the container first; it misses the same as C119_construct_partial. C119_assign_elements is assign for other elements of containers that can reserve: an exception while elements are assigned leaves the first elements of the view followed by the old ones, and as many as there were."
  },
  {
   "property": "C120",
   "status": "partial",
   "theorems": [
    "Verif.Containers.C120_concatenate_partial"
   ],
   "note": "C120_concatenate_partial misses more elements than the greatest size, which is undefined (C25), arguments of the type of the result, whose storage may be reused (C49, where exceptions violate this), and views that can be gone through only once."
  },
  {
   "property": "C121",
   "status": "partial",
   "theorems": [
    "Verif.Lists.C121_assign",
    "Verif.Lists.C121_sized_assign",
    "Verif.Lists.C121_forward_assign",
    "Verif.Lists.C121_append",
    "Verif.Lists.C121_sized_append",
    "Verif.Lists.C121_sized_construct",
    "Verif.Lists.C121_append_after",
    "Verif.Lists.C121_construct_partial",
    "Verif.Lists.C121_construct_forward_partial",
    "Verif.Lists.C121_sized_insert",
    "Verif.Lists.C121_insert_partial",
    "Verif.Lists.C121_construct_violated",
    "Verif.Lists.C121_construct_forward_violated",
    "Verif.Lists.C121_plain_history_partial",
    "Verif.Lists.C121_forward_history_partial",
    "Verif.Lists.C121_plain_history_from_start_partial",
    "Verif.Lists.C121_forward_history_from_start_partial",
    "Verif.Lists.C121_history_partial",
    "Verif.Lists.C121_history_from_start_partial"
   ],
   "note": "Construction of a list that does not count its size, and insert into it, lose the nodes made before the exception, since the body of the destructor does not run for an object whose constructor throws: C121_construct_violated, C121_construct_forward_violated. C121_construct_partial, C121_construct_forward_partial and C121_insert_partial are what holds of them. C121_append, C121_sized_append, C121_sized_construct, C121_sized_insert, C121_append_after, C121_assign, C121_sized_assign and C121_forward_assign miss nothing of the claim for their operations. C121_history_partial is about any sequence of operations on lists with a counted size; it misses the size of the lists that C58 says are stale. C121_plain_history_partial and C121_forward_history_partial are histories of lists without a counted size; the operations that lose nodes are not among them."
  }
 ]
}