{"id": "C01", "title": "Bounded addition is exact and never overflows", "statement": "For any two bounded integers a and b whose sum type compiles, a + b evaluates without undefined behaviour to the mathematical sum of a and b, and that sum lies inside the range declared by the result type, whose bounds are exactly min+min and max+max. If the exact bounds do not fit the widest built-in types the expression is rejected at compile time instead of wrapping.", "quantifier": "for all pairs of ranges representable in the widest built-in type, and all values in them", "why_tests_cant": "The range bounds are template arguments and the values are run-time data, so there are astronomically many (range, value) combinations; tests instantiate a handful of ranges.", "anchors": ["source/bounded/arithmetic/plus.cpp: safer_add, operator+"]}
{"id": "C02", "title": "Bounded multiplication is exact and never overflows", "statement": "For any two bounded integers a and b whose product type compiles, a * b evaluates without undefined behaviour to the mathematical product, and the product lies inside the declared range of the result. Products whose range does not fit the widest types are rejected at compile time.", "quantifier": "for all pairs of ranges and all values in them", "why_tests_cant": "The range bounds are template arguments and the values are run-time data, so there are astronomically many (range, value) combinations; tests instantiate a handful of ranges.", "anchors": ["source/bounded/arithmetic/multiplies.cpp: safer_multiply, operator*"]}
{"id": "C03", "title": "Negation and subtraction are exact", "statement": "Whenever -a (or a - b) compiles, it evaluates without undefined behaviour to the mathematical negation (difference) and lies in the declared range [-max,-min] (resp. [amin-bmax, amax-bmin]); in particular negating the minimum of a signed type is correct.", "quantifier": "for all ranges and all values in them", "why_tests_cant": "The range bounds are template arguments and the values are run-time data, so there are astronomically many (range, value) combinations; tests instantiate a handful of ranges.", "anchors": ["source/bounded/arithmetic/unary_minus.cpp: safer_negation, operator-", "source/bounded/arithmetic/increment_decrement.cpp"]}
{"id": "C04", "title": "Bounded division truncates toward zero inside the declared range", "statement": "Whenever a / b compiles and the run-time divisor is not zero, the result is the quotient truncated toward zero, lies in the declared result range, and no intermediate overflows (including MIN / -1). The only undefined case is a zero divisor. A divisor whose declared range begins or ends at zero does not compile.", "quantifier": "for all ranges and all values in them with non-zero divisor", "why_tests_cant": "The range bounds are template arguments and the values are run-time data, so there are astronomically many (range, value) combinations; tests instantiate a handful of ranges.", "anchors": ["source/bounded/arithmetic/divides.cpp: safer_divide, divides_operator_range, operator/", "source/bounded/arithmetic/safe_abs.cpp"]}
{"id": "C05", "title": "Bounded modulus yields the C++ remainder inside the declared range", "statement": "Whenever a % b compiles and the run-time divisor is not zero, the result is the remainder of truncated division and lies in the declared range; the only undefined case is a zero divisor.", "quantifier": "for all ranges and all values in them with non-zero divisor", "why_tests_cant": "The range bounds are template arguments and the values are run-time data, so there are astronomically many (range, value) combinations; tests instantiate a handful of ranges.", "anchors": ["source/bounded/arithmetic/modulus.cpp: modulo_round, sign_free_value, modulus_operator_range, operator%"]}
{"id": "C06", "title": "The modulus result range is as tight as possible", "statement": "For every dividend range and divisor range, both declared bounds of a % b are attained by some dividend and divisor in range, so no smaller result type would be sound.", "quantifier": "for all pairs of ranges", "why_tests_cant": "Tightness quantifies over all values of all ranges; the compile-time loop has data dependent early exits.", "anchors": ["source/bounded/arithmetic/modulus.cpp: sign_free_value, modulus_operator_range"]}
{"id": "C07", "title": "Shifts compute multiplication / division by powers of two inside the declared range", "statement": "Whenever a << b (a >> b) compiles, it evaluates without undefined behaviour to a*2^b (floor(a/2^b)) and the value lies in the declared result range.", "quantifier": "for all ranges and all values in them", "why_tests_cant": "The range bounds are template arguments and the values are run-time data, so there are astronomically many (range, value) combinations; tests instantiate a handful of ranges.", "anchors": ["source/bounded/arithmetic/left_shift.cpp: operator<<", "source/bounded/arithmetic/right_shift.cpp: operator>>"]}
{"id": "C08", "title": "Bitwise and stays inside its declared range", "statement": "a & b evaluates to the two's complement bitwise and of a and b and lies in the declared range [0, min(max a, max b)].", "quantifier": "for all ranges and all values in them", "why_tests_cant": "The range bounds are template arguments and the values are run-time data, so there are astronomically many (range, value) combinations; tests instantiate a handful of ranges.", "anchors": ["source/bounded/arithmetic/bitwise_and.cpp: operator&"]}
{"id": "C09", "title": "Comparisons agree with mathematical order", "statement": "Comparing two bounded integers, or a bounded integer with a built-in integer, of any (possibly different) signedness and width, with <=> or == gives the order of the mathematical values; a negative value is never treated as a huge unsigned one.", "quantifier": "for all pairs of integer types and all pairs of values", "why_tests_cant": "The range bounds are template arguments and the values are run-time data, so there are astronomically many (range, value) combinations; tests instantiate a handful of ranges.", "anchors": ["source/bounded/safe_compare.cpp: safe_compare", "source/bounded/safe_equal.cpp: safe_equal", "source/bounded/comparison.cpp: operator<=>, operator=="]}
{"id": "C10", "title": "The chosen storage type can hold every value of the range", "statement": "For every accepted range the storage type selected for integer<min,max> represents every value in [min,max], constructing from any value in range and reading it back returns the same value, and no narrower standard type of the candidate list would do; ranges that fit no type are rejected.", "quantifier": "for all ranges", "why_tests_cant": "The range bounds are template arguments and the values are run-time data, so there are astronomically many (range, value) combinations; tests instantiate a handful of ranges.", "anchors": ["source/bounded/underlying_type_t.cpp: determine_type", "source/bounded/value_fits_in_type.cpp", "source/bounded/integer.cpp: integer, value"]}
{"id": "C11", "title": "Whole expressions evaluate exactly", "statement": "Any expression tree built from bounded integer variables with +, -, *, unary -, abs, min, max and non-zero division that compiles evaluates, without undefined behaviour at any node, to the mathematical value of the expression, within the declared type of the root.", "quantifier": "for all expression trees of any depth, all variable ranges, all variable values", "why_tests_cant": "Expression trees are unbounded; overflow at an inner node would be invisible to tests of single operators.", "anchors": ["source/bounded/arithmetic/plus.cpp", "source/bounded/arithmetic/multiplies.cpp", "source/bounded/arithmetic/unary_minus.cpp", "source/bounded/arithmetic/divides.cpp", "source/bounded/abs.cpp", "source/bounded/minmax.cpp"]}
{"id": "C12", "title": "Narrowing assignment and compound assignment store the exact value or are undefined", "statement": "Assigning a bounded integer of an overlapping range, and x += y, x -= y, x *= y, ++x, --x, store exactly the mathematical result when it is inside the target range; they never silently store a different value (out of range results are undefined behaviour, never wrap-around).", "quantifier": "for all ranges, values and sequences of compound assignments", "why_tests_cant": "The range bounds are template arguments and the values are run-time data, so there are astronomically many (range, value) combinations; tests instantiate a handful of ranges.", "anchors": ["source/bounded/integer.cpp: operator=, assume_in_range", "source/bounded/arithmetic/increment_decrement.cpp"]}
{"id": "C13", "title": "check_in_range is exact", "statement": "check_in_range(value, lo, hi) returns the same mathematical value, typed to the intersection of the ranges, exactly when lo <= value <= hi, and throws otherwise.", "quantifier": "for all argument types (bounded and built-in, any signedness) and all values", "why_tests_cant": "The range bounds are template arguments and the values are run-time data, so there are astronomically many (range, value) combinations; tests instantiate a handful of ranges.", "anchors": ["source/bounded/check_in_range.cpp: check_in_range", "source/bounded/checked_bit_cast.cpp"]}
{"id": "C14", "title": "min, max, clamp and abs are exact and correctly typed", "statement": "min/max of any number of bounded integers returns the smallest/largest argument (the first such argument on ties), inside the declared result range; clamp returns the nearest value in [lo,hi] (when lo<=hi); abs returns the absolute value in a non-negative range.", "quantifier": "for all numbers of arguments, ranges and values", "why_tests_cant": "The range bounds are template arguments and the values are run-time data, so there are astronomically many (range, value) combinations; tests instantiate a handful of ranges.", "anchors": ["source/bounded/minmax.cpp: extreme_value, extreme_function", "source/bounded/clamp.cpp", "source/bounded/abs.cpp", "source/bounded/cast.cpp: increase_min"]}
{"id": "C15", "title": "to_integer accepts exactly the in-range decimal strings", "statement": "to_integer<min,max>(s) returns v iff s is a non-empty string of decimal digits, optionally preceded by '-' when min<0, denoting v with min<=v<=max; every other string throws invalid_argument; no intermediate overflows for strings of any length.", "quantifier": "for all strings of any length and all ranges", "why_tests_cant": "Strings are unbounded; overflow checks interact with prefixes of arbitrary length.", "anchors": ["source/bounded/to_integer.cpp: to_integer, to_integer_positive_impl, as_digit"]}
{"id": "C16", "title": "Integer to string to integer round trips", "statement": "For every bounded integer value, formatting it with to_string (to_any_string) gives the canonical decimal representation, at most digits_in_string_representation characters long, and parsing that with to_integer returns the original value.", "quantifier": "for all values of all ranges", "why_tests_cant": "The range bounds are template arguments and the values are run-time data, so there are astronomically many (range, value) combinations; tests instantiate a handful of ranges.", "anchors": ["source/containers/to_any_string.cpp", "source/bounded/check_in_range.cpp: to_string", "source/bounded/to_integer.cpp", "source/bounded/representation_digits.cpp"]}
{"id": "C17", "title": "log and pow are exact and stay in the declared range", "statement": "log(v, base) is the largest e with base^e <= v (0 for v = 0) and pow(b, e) is exactly b^e; both lie in the declared result range for all arguments in range, with no wrap-around in the intermediate products.", "quantifier": "for all ranges and values", "why_tests_cant": "The range bounds are template arguments and the values are run-time data, so there are astronomically many (range, value) combinations; tests instantiate a handful of ranges.", "anchors": ["source/bounded/log.cpp", "source/bounded/pow.cpp"]}
{"id": "C18", "title": "numeric_limits digits and representation_bits are safe", "statement": "Every integer with at most numeric_limits<T>::digits (digits10) base-2 (base-10) digits is representable in T when the value is meaningful (non-zero), and every value of T fits a two's complement (or unsigned) bit-field of representation_bits<T> bits.", "quantifier": "for all ranges and values", "why_tests_cant": "The range bounds are template arguments and the values are run-time data, so there are astronomically many (range, value) combinations; tests instantiate a handful of ranges.", "anchors": ["source/bounded/numeric_limits.cpp: digits", "source/bounded/representation_digits.cpp: digits_impl"]}
{"id": "C19", "title": "Tombstone representations are a bijection disjoint from real values", "statement": "For an integer type with spare representations, make(i) for distinct indexes gives distinct representations, none equal to a live value, and index(make(i)) = i while index(v) reports 'not a tombstone' for every live value v.", "quantifier": "for all ranges and all indexes below the spare count", "why_tests_cant": "The range bounds are template arguments and the values are run-time data, so there are astronomically many (range, value) combinations; tests instantiate a handful of ranges.", "anchors": ["source/bounded/tombstone.cpp: tombstone_traits"]}
{"id": "C20", "title": "Nested optional never confuses levels", "statement": "For optionals of any nesting depth over a type with spare representations, an optional built from a value reports that value, an empty optional at level k reports empty at exactly level k, and these representations are pairwise distinct as long as enough spare representations remain.", "quantifier": "for all nesting depths and values", "why_tests_cant": "Nesting depth is unbounded and spare representations are consumed per level.", "anchors": ["source/tv/optional.cpp: optional_storage, tombstone"]}
{"id": "C21", "title": "Optional behaves as a value-or-nothing container over any operation history", "statement": "After any sequence of construct, assign value, assign none, copy/move assign, swap-like and emplace operations an optional equals the abstract 'Option' state predicted by the history, and every contained object is constructed exactly once and destroyed exactly once.", "quantifier": "for all operation sequences", "why_tests_cant": "Histories are unbounded.", "anchors": ["source/tv/optional.cpp: assign, optional_storage"]}
{"id": "C22", "title": "Variant holds exactly one live alternative over any history", "statement": "After any sequence of constructions, assignments and emplacements, including ones whose element construction throws before the old value is replaced, a variant holds exactly one live alternative with the index and value predicted by the history; no alternative is destroyed twice or leaked.", "quantifier": "for all operation histories and exception points", "why_tests_cant": "Histories and exception points are unbounded.", "anchors": ["source/tv/variant.cpp: emplace_impl, replace_active_member, assign"]}
{"id": "C23", "title": "visit calls exactly the overload for the active alternatives", "statement": "visit(f, v1, ..., vn) calls f exactly once, with the active alternative and index of every argument, for any number of variants with any number of alternatives (beyond the 16-way unrolled switch).", "quantifier": "for all numbers of alternatives and all indexes", "why_tests_cant": "Alternative counts are template arguments; tests only use small counts.", "anchors": ["source/tv/visit.cpp: visit_with_index, visit"]}
{"id": "C24", "title": "Tuple comparison is lexicographic and tuple_cat concatenates", "statement": "Comparing tuples gives the lexicographic order of their elements and tuple_cat yields all elements of all arguments in order.", "quantifier": "for all tuple lengths and values", "why_tests_cant": "Unbounded lengths.", "anchors": ["source/tv/tuple.cpp: operator<=>, operator==", "source/tv/tuple_cat.cpp"]}
{"id": "C25", "title": "Vector operations refine a mathematical sequence", "statement": "After any sequence of push_back, insert (single, range, at any position), erase (single, range), pop_back, resize, append, assign, reserve, shrink_to_fit and clear, a vector contains exactly the sequence those operations describe, and size <= capacity <= max size holds throughout; indexing returns the elements of that sequence and at() throws exactly when the index is out of range.", "quantifier": "for all operation sequences of any length and all element values", "why_tests_cant": "Histories are unbounded and reallocation happens at data dependent points.", "anchors": ["source/containers/bounded_vector.cpp", "source/containers/lazy_push_back.cpp", "source/containers/insert.cpp", "source/containers/append.cpp", "source/containers/assign.cpp", "source/containers/resize.cpp", "source/containers/algorithms/erase.cpp", "source/containers/at.cpp"]}
{"id": "C26", "title": "Vector growth works right up to the maximum size", "statement": "For a vector whose size type is bounded by N, every push_back/append/insert that leaves size <= N succeeds.", "quantifier": "for all N and operation sequences", "why_tests_cant": "Growth doubles the capacity, so the failing sizes depend on N and the history.", "anchors": ["source/containers/lazy_push_back.cpp", "source/containers/reallocation_size.cpp", "source/containers/exponential_force_reserve.cpp"]}
{"id": "C27", "title": "Vector element lifetimes are exact", "statement": "Through any history of vector operations each storage slot is constructed only when raw and destroyed/relocated-from only when live; at every quiescent point exactly the slots [0,size) are live, and after destruction nothing is live and every allocation has been released exactly once.", "quantifier": "for all operation histories, including exceptions thrown while constructing an element", "why_tests_cant": "Histories and exception points are unbounded; memory errors often stay invisible in tests.", "anchors": ["source/containers/uninitialized_dynamic_array.cpp", "source/containers/bounded_vector.cpp", "source/containers/algorithms/uninitialized.cpp", "source/containers/algorithms/erase.cpp", "source/containers/insert.cpp"]}
{"id": "C28", "title": "static_vector never exceeds its fixed capacity", "statement": "No public operation on a static_vector of capacity N writes outside its N slots; an operation that would exceed the capacity throws (or is rejected) and otherwise performs the described sequence operation.", "quantifier": "for all capacities, contents and operation sequences", "why_tests_cant": "The failing combinations depend on current size and argument size.", "anchors": ["source/containers/static_vector.cpp", "source/containers/append.cpp", "source/containers/append_into_capacity.cpp", "source/containers/insert.cpp", "source/containers/take.cpp"]}
{"id": "C29", "title": "Small-buffer vector size encoding round trips", "statement": "Splitting the size into prefix bytes plus a seven-bit last byte shared with the is-large flag and recombining it returns the same size for every size up to the declared maximum, and setting the size never changes the flag (nor the reverse).", "quantifier": "for all sizes and all maximum sizes", "why_tests_cant": "The size range depends on template parameters and byte widths.", "anchors": ["source/containers/sbo_vector.cpp: split_size_bytes, recombine_size, set_size"]}
{"id": "C30", "title": "Small-buffer vector transitions preserve contents", "statement": "Any sequence of reserve, growth, move construction, move assignment, replace_empty_allocation and push_back leaves a small-buffer vector with the predicted contents irrespective of small/large representation switches, and owns a heap block exactly when large.", "quantifier": "for all operation histories", "why_tests_cant": "Histories are unbounded.", "anchors": ["source/containers/sbo_vector.cpp: reserve, relocate_to_large, relocate_to_small, move_assign_to_empty, replace_empty_allocation"]}
{"id": "C31", "title": "Doubly linked list operations preserve the ring and the sequence", "statement": "Any sequence of insert, erase, splice (between lists), swap, move and clear keeps every list a well formed circular doubly linked chain whose forward traversal is the sequence the operations describe and whose backward traversal is its reverse; nodes are neither lost nor shared.", "quantifier": "for all operation histories and list sizes", "why_tests_cant": "Pointer structures of unbounded size.", "anchors": ["source/containers/bidirectional_linked_list.cpp", "source/containers/linked_list_helper.cpp"]}
{"id": "C32", "title": "Forward list operations preserve the sequence", "statement": "Any sequence of insert_after, erase_after, splice_after and push_front keeps a forward list an acyclic chain holding the sequence the operations describe.", "quantifier": "for all operation histories and list sizes", "why_tests_cant": "Pointer structures of unbounded size.", "anchors": ["source/containers/forward_linked_list.cpp", "source/containers/linked_list_helper.cpp"]}
{"id": "C33", "title": "flat_map behaves as a map for any history", "statement": "After any sequence of insert (single), insert (range), erase and upsert, a flat_map is sorted with unique keys, find/lookup returns the mapped value predicted by a mathematical map (an existing key keeps its old value on insert), and iteration is in key order.", "quantifier": "for all histories and key/value contents", "why_tests_cant": "Histories are unbounded and range insertion sorts and merges in place.", "anchors": ["source/containers/flat_map.cpp: lazy_insert, insert, erase, find, upsert, merge_sorted_and_unsorted", "source/containers/algorithms/unique.cpp: unique_inplace_merge"]}
{"id": "C34", "title": "flat_multimap keeps every element in key order", "statement": "After any sequence of inserts a flat_multimap contains exactly the inserted elements sorted by key, later single inserts of an equal key coming after earlier ones.", "quantifier": "for all histories", "why_tests_cant": "Histories are unbounded.", "anchors": ["source/containers/flat_map.cpp: lazy_insert, insert"]}
{"id": "C35", "title": "linear_map behaves as a map for any history", "statement": "After any sequence of insert (single or range) and erase, a linear_map has unique keys and find returns the value of the first insertion of that key.", "quantifier": "for all histories", "why_tests_cant": "Histories are unbounded.", "anchors": ["source/containers/linear_map.cpp: find, lazy_insert, insert, remove_duplicates"]}
{"id": "C36", "title": "Binary search returns the exact boundary", "statement": "On any partitioned range partition_point returns the boundary between true and false elements; lower_bound, upper_bound and equal_range return the exact positions on any sorted range, and binary_search is true exactly when an equivalent element is present. The search always terminates and never dereferences the end.", "quantifier": "for all range lengths, contents and search values", "why_tests_cant": "Off-by-one errors depend on length parity and position of the boundary for each length.", "anchors": ["source/containers/algorithms/partition.cpp: partition_point", "source/containers/algorithms/binary_search.cpp"]}
{"id": "C37", "title": "partition and iterator_partition permute and separate", "statement": "partition reorders any range so that all elements satisfying the predicate precede the others, returns the boundary and keeps the multiset of elements; it never reads outside the range.", "quantifier": "for all ranges and predicates", "why_tests_cant": "Data dependent loops over unbounded ranges.", "anchors": ["source/containers/algorithms/partition.cpp: partition, iterator_partition"]}
{"id": "C38", "title": "The comparison sorts sort every input", "statement": "new_sort/introsort leaves any range a sorted permutation of its input for any strict weak order, whatever pivots are encountered, terminating within its depth limit by falling back to heap sort.", "quantifier": "for all input sequences and strict weak orders", "why_tests_cant": "There are n! inputs of each length and the algorithm has several size and depth regimes.", "anchors": ["source/containers/algorithms/sort/sort.cpp: introsort_impl, new_sort", "source/containers/algorithms/sort/small_size_optimized_sort.cpp", "source/containers/algorithms/sort/chunked_insertion_sort.cpp"]}
{"id": "C39", "title": "Fixed-size sorts sort every input", "statement": "The dedicated routines for ranges of 0 to 5 elements (in place and relocating versions) produce a sorted permutation for every input and strict weak order, and the ones documented as stable keep equivalent elements in input order.", "quantifier": "for all element types, orders and inputs of those sizes", "why_tests_cant": "Element types and orders are unbounded; stability needs all tie patterns.", "anchors": ["source/containers/algorithms/sort/sort_exactly_2.cpp", "source/containers/algorithms/sort/sort_exactly_3.cpp", "source/containers/algorithms/sort/sort_exactly_4.cpp", "source/containers/algorithms/sort/sort_exactly_5.cpp", "source/containers/algorithms/sort/rotate_one.cpp"]}
{"id": "C40", "title": "Merges are stable and complete", "statement": "Merging two sorted ranges gives the stable merge: sorted, containing exactly both inputs, equivalent elements from the first range before those of the second; the overlapping relocation version never overwrites an element that is still to be read.", "quantifier": "for all pairs of sorted ranges", "why_tests_cant": "Unbounded inputs; the overlap safety argument depends on all interleavings.", "anchors": ["source/containers/algorithms/sort/merge_relocate_second_range.cpp", "source/containers/algorithms/sort/chunked_insertion_sort.cpp", "source/containers/algorithms/sort/fixed_size_merge_sort.cpp"]}
{"id": "C41", "title": "double_buffered_ska_sort is a stable sort by key", "statement": "For every range and key extraction, double_buffered_ska_sort produces the stable sort of the input by key (numbers, booleans, tuples and ranges as keys) and reports correctly which buffer holds the result.", "quantifier": "for all input sequences and key widths", "why_tests_cant": "Unbounded inputs and key structures; the buffer parity depends on data.", "anchors": ["source/containers/algorithms/sort/double_buffered_ska_sort.cpp"]}
{"id": "C42", "title": "ska_sort sorts every input by key", "statement": "For every range and key extraction function, ska_sort leaves the range a permutation of its input sorted by the key.", "quantifier": "for all input sequences and key structures", "why_tests_cant": "The algorithm switches strategy by size and number of distinct bytes; failing inputs are rare patterns.", "anchors": ["source/containers/algorithms/sort/inplace_radix_sort.cpp", "source/containers/algorithms/sort/ska_sort.cpp"]}
{"id": "C43", "title": "Radix sort keys preserve order", "statement": "For every supported scalar type x < y iff to_radix_sort_key(x) < to_radix_sort_key(y), and equal keys imply equal values.", "quantifier": "for all values of all supported types", "why_tests_cant": "64/128-bit value pairs cannot be enumerated.", "anchors": ["source/containers/algorithms/sort/to_radix_sort_key.cpp"]}
{"id": "C44", "title": "unique keeps exactly one element per group and merges keep sets", "statement": "unique/unique_copy keep the first element of every maximal run of equivalent elements, in order, and return the new end; unique_merge_copy and unique_inplace_merge of sorted unique ranges give the sorted union, with the element of the first range kept on ties.", "quantifier": "for all input sequences", "why_tests_cant": "Unbounded inputs.", "anchors": ["source/containers/algorithms/unique.cpp"]}
{"id": "C45", "title": "Set intersection visits exactly the common keys", "statement": "The pairwise intersection of two sorted ranges visits exactly the pairs of elements with equal keys, in order, without reading past either end.", "quantifier": "for all pairs of sorted ranges", "why_tests_cant": "Unbounded inputs.", "anchors": ["source/containers/algorithms/set.cpp"]}
{"id": "C46", "title": "erase and erase_if remove exactly the right elements", "statement": "erase(first,last) removes exactly that subrange and returns the position after it; erase_if removes exactly the elements satisfying the predicate, keeps the order of the others and returns how many were removed.", "quantifier": "for all contents, subranges and predicates", "why_tests_cant": "Unbounded inputs.", "anchors": ["source/containers/algorithms/erase.cpp", "source/containers/algorithms/remove_none.cpp"]}
{"id": "C47", "title": "Range comparison functions implement lexicographic, short-lex and equality", "statement": "containers::equal decides elementwise equality of same-length sequences, lexicographical_compare the dictionary order and shortlex_compare the length-first order; the orders are antisymmetric and transitive when the element order is.", "quantifier": "for all sequences", "why_tests_cant": "Unbounded inputs.", "anchors": ["source/containers/algorithms/compare.cpp"]}
{"id": "C48", "title": "split and join are inverse", "statement": "Splitting a range by a delimiter yields pieces that contain no delimiter and whose join with the delimiter is the original range; joining delimiter-free pieces and splitting again yields the original pieces.", "quantifier": "for all ranges and delimiters", "why_tests_cant": "Unbounded inputs; empty first/last pieces are the tricky cases.", "anchors": ["source/containers/algorithms/split.cpp", "source/containers/algorithms/join_with.cpp", "source/containers/algorithms/join.cpp"]}
{"id": "C49", "title": "concatenate and concatenate_view produce the concatenation", "statement": "concatenate(r1,...,rn) returns the elements of all arguments in order irrespective of which argument's storage is reused; a concatenate_view visits the same sequence, and its random access arithmetic (it+n, it-jt, comparison) agrees with positions in that sequence.", "quantifier": "for all numbers of ranges, sizes and offsets", "why_tests_cant": "Storage reuse depends on capacities; offsets cross range boundaries.", "anchors": ["source/containers/algorithms/concatenate.cpp", "source/containers/algorithms/concatenate_view.cpp"]}
{"id": "C50", "title": "Lazy views agree with their list definitions", "statement": "filter, transform, take, drop, zip, zip_smallest, adjacent, chunk_by, reverse and integer_range views visit exactly the sequence given by their mathematical definition, with size() equal to the length; zip throws exactly on mismatched lengths.", "quantifier": "for all underlying ranges and parameters", "why_tests_cant": "Unbounded inputs.", "anchors": ["source/containers/algorithms/filter.cpp", "source/containers/take.cpp", "source/containers/algorithms/drop.cpp", "source/containers/algorithms/zip.cpp", "source/containers/algorithms/adjacent.cpp", "source/containers/algorithms/chunk_by.cpp", "source/containers/algorithms/reverse_iterator.cpp", "source/containers/integer_range.cpp"]}
{"id": "C51", "title": "Uninitialized copies give the strong lifetime guarantee", "statement": "uninitialized_copy either constructs every destination element, or (when some element copy throws) leaves every destination slot raw with everything it constructed destroyed exactly once; relocation leaves sources raw and destinations live.", "quantifier": "for all lengths and all exception points", "why_tests_cant": "The exception point is universally quantified.", "anchors": ["source/containers/algorithms/uninitialized.cpp"]}
{"id": "C52", "title": "sum and product accumulate exactly", "statement": "sum (product) over any range of bounded integers with a bounded length returns the exact mathematical sum (product), and every partial result fits the declared result type.", "quantifier": "for all ranges of values up to the length bound", "why_tests_cant": "Unbounded inputs.", "anchors": ["source/containers/algorithms/accumulate.cpp"]}
{"id": "C53", "title": "Searching algorithms return the first match", "statement": "find/find_if return the first matching position (or end), find_last style and mismatch return the first difference, count/count_if the number of matches, any/all/none the corresponding quantifier, starts_with/ends_with prefix/suffix; min_element the first minimum and max_element the last maximum.", "quantifier": "for all sequences, predicates and orders", "why_tests_cant": "Unbounded inputs.", "anchors": ["source/containers/algorithms/find.cpp", "source/containers/algorithms/all_any_none.cpp", "source/containers/algorithms/count.cpp", "source/containers/algorithms/mismatch.cpp", "source/containers/algorithms/starts_with.cpp", "source/containers/algorithms/ends_with.cpp", "source/containers/algorithms/minmax_element.cpp"]}
{"id": "C54", "title": "Reverse and batched visit every element once in the right order", "statement": "reverse reverses any range in place (random access and bidirectional versions); batching splits a range into exactly the requested number of consecutive batches whose concatenation is the range and whose sizes differ by at most one, the longer ones first.", "quantifier": "for all ranges and numbers of batches", "why_tests_cant": "Unbounded inputs; parity dependent loops.", "anchors": ["source/containers/algorithms/reverse.cpp", "source/containers/batched.cpp"]}
{"id": "C55", "title": "round_up_divide rounds the quotient up", "statement": "Whenever round_up_divide(a, b) compiles, for a >= 0 and b > 0 the result is the least integer q with a <= q*b, inside the declared range of the result.", "quantifier": "for all argument types and all values", "why_tests_cant": "The range is astronomically large and the result type is computed from the argument types.", "anchors": ["source/bounded/arithmetic/round_up_divide.cpp: round_up_divide"]}
{"id": "C56", "title": "Fixed-size sorts make no more comparisons than documented", "statement": "Sorting 1 to 5 elements with the dedicated routines makes at most the documented maximum number of comparisons (0, 1, 3, 5, 7), exactly the documented number on input that is already sorted (0, 1, 2, 4, 6) and on strictly descending input, whatever the element type and order; the branchless version for four elements always makes five.", "quantifier": "for all element types, orders and inputs of those sizes", "why_tests_cant": "A comparison function may be arbitrary, even inconsistent; tests sample a few.", "anchors": ["source/containers/algorithms/sort/sort_exactly_2.cpp", "source/containers/algorithms/sort/sort_exactly_3.cpp", "source/containers/algorithms/sort/sort_exactly_4.cpp", "source/containers/algorithms/sort/sort_exactly_5.cpp"]}
{"id": "C57", "title": "Taking the elements of an rvalue container", "statement": "Constructing or appending to a container from an rvalue container moves every element exactly once: afterwards the target has them (converted to its element type) after its own elements in order and the source is empty. If an allocation or a conversion throws, both containers are still valid: each can be destroyed, and no element is destroyed twice or never.", "quantifier": "for all source and target contents and capacities, all converting constructors, all points at which an allocation or a conversion throws", "why_tests_cant": "tests move a few small vectors without exceptions; the point of failure, the combination of container types and the moved-from state form an unbounded space", "anchors": ["source/containers/append.cpp: append_impl", "source/containers/append_into_capacity.cpp: append_into_capacity_impl", "source/containers/assign_to_empty.cpp: assign_to_empty_impl", "source/containers/assign_to_empty_into_capacity.cpp: assign_to_empty_into_capacity_impl", "source/containers/algorithms/copy_or_relocate_from.cpp: copy_or_relocate_from", "source/containers/algorithms/uninitialized.cpp: uninitialized_copy"]}
{"id": "C58", "title": "size() of a list is the number of its elements", "statement": "After any history of construction, copying, moving, swapping, assignment, insertion, erasure, resize and splicing between lists, with exceptions thrown by element construction or assignment at any point, size() of every existing std-style list equals the number of elements that iterating over it visits.", "quantifier": "for all histories of operations on any number of lists and all points at which an element operation throws", "why_tests_cant": "the counter is kept apart from the chain of nodes; disagreement appears only after particular combinations of operations and failures", "anchors": ["source/containers/std/list.cpp: sized_list", "source/containers/resize.cpp: resize", "source/containers/algorithms/splice.cpp: splice", "source/containers/algorithms/erase.cpp: erase"]}
{"id": "C59", "title": "Dynamic arrays own their elements through every history", "statement": "After any history of construction from ranges, copying, moving, swapping, assignment (from a range of the same or of another size), clearing and destruction of dynamic arrays, with any pattern of failed allocations, sizes outside the size type and exceptions from elements, nothing undefined has happened, no memory is leaked, each existing array iterates over exactly the elements the last successful operations gave it, and size() is their number.", "quantifier": "for all histories on any number of arrays, all contents, all size types and all points of failure", "why_tests_cant": "the state after a failure or a move depends on the whole history; tests cover a few short ones", "anchors": ["source/containers/dynamic_array.cpp: dynamic_array, assign", "source/containers/uninitialized_dynamic_array.cpp: uninitialized_dynamic_array", "source/containers/dynamic_array_data.cpp"]}
{"id": "C60", "title": "Inserting elements of the container itself", "statement": "When the source of an insert, append or resize consists of references to elements of the container that is changed (insert(v, it, v[k]), append(v, v), resize(v, n, v[k])), the new elements are copies of what those references referred to before the call, whether or not the container has to reallocate; otherwise the operation behaves as with independent values.", "quantifier": "for all containers of the vector family, contents, capacities, positions, selections of elements and points of failure", "why_tests_cant": "whether a reference still denotes the right element depends on size, capacity and position together; tests use values from outside the container", "anchors": ["source/containers/insert.cpp: insert, insert_without_reallocation, insert_with_reallocation", "source/containers/append.cpp: append_impl", "source/containers/resize.cpp: resize", "source/containers/std/vector.cpp: insert, emplace", "source/containers/std/inplace_vector.cpp: insert"]}
{"id": "C61", "title": "Single-pass ranges obtain every element exactly once", "statement": "A loop over generate_n(n, f), generate(f) or generate_until(f, done) sees exactly the results of successive calls of f (n calls; until nothing is returned; while done is false), and f is called once per element and never after an exception. Views over such ranges (transform_non_idempotent, remove_none, filter) obtain each underlying element exactly once, in order, and show the ones they select. indexed_generate_n and repeat_n are random access ranges of f(0), ..., f(n-1) and of n copies.", "quantifier": "for all functions with arbitrary captured state, all points at which a call throws, all lengths", "why_tests_cant": "the function and its state are arbitrary; a second call for the same element is only visible with a stateful function", "anchors": ["source/containers/algorithms/generate.cpp: generate, generate_n, generate_n_idempotent, indexed_generate_n", "source/containers/algorithms/generate_until.cpp: generate_until", "source/containers/algorithms/transform.cpp: transform_non_idempotent", "source/containers/algorithms/remove_none.cpp: remove_none", "source/containers/algorithms/filter.cpp: filter", "source/containers/repeat_n.cpp: repeat_n"]}
{"id": "C62", "title": "Returned iterators and references refer to the right element", "statement": "The iterator returned by insert, emplace and lazy_insert refers to the first of the new elements (or, if there is none, to the element at the position), the iterator returned by erase to the element after the erased ones, and the reference returned by push_back, emplace_back, push_front and emplace_front to the new element - in the container as it is afterwards, so never into storage that has been given up.", "quantifier": "for every container state, every position, every number of elements, with and without reallocation", "why_tests_cant": "whether the iterator is taken before or after the reallocation, and from which of the two storages, depends on the capacity at the time; a list is a chain of any length and the iterator is one node among them", "anchors": ["source/containers/insert.cpp: insert, insert_without_reallocation, insert_with_reallocation, emplace, lazy_insert", "source/containers/algorithms/erase.cpp: erase", "source/containers/lazy_push_back.cpp", "source/containers/lazy_push_back_into_capacity.cpp", "source/containers/lazy_push_front.cpp", "source/containers/bidirectional_linked_list.cpp", "source/containers/forward_linked_list.cpp: lazy_insert_after"]}
{"id": "C63", "title": "Standard-style containers: reverse iteration and rearranging members", "statement": "For the containers with the interface of the standard library: iterating from rbegin() to rend() visits the elements in reverse order; list::reverse, sort, merge and unique rearrange the list as the standard says.", "quantifier": "for every vector, inplace_vector and list, of any size and contents", "why_tests_cant": "the claim is about all sizes and contents; a reverse loop over an empty container, or sorting a sorted list, gives the right result even if the functions are wrong", "anchors": ["source/containers/std/vector.cpp: rbegin, rend", "source/containers/std/inplace_vector.cpp: rbegin, rend", "source/containers/std/list.cpp: rbegin, rend, reverse, sort, merge, unique"]}
{"id": "C64", "title": "inplace_vector reports a full container without touching it", "statement": "try_push_back and try_emplace_back of inplace_vector return null exactly when the container is full, and then neither construct an element nor change the container; otherwise they add the element at the end and return its address. unchecked_push_back does the same as push_back if there is room. reserve throws exactly if the request exceeds the capacity, and never changes the container.", "quantifier": "for every capacity, every contents, every value, including values that are elements of the container and constructors that throw", "why_tests_cant": "the condition is on the relation of size and capacity, both arbitrary; failure has to leave every byte alone", "anchors": ["source/containers/std/inplace_vector.cpp: try_push_back, try_emplace_back, unchecked_push_back, unchecked_emplace_back, reserve", "source/containers/lazy_push_back_into_capacity.cpp"]}
{"id": "C65", "title": "Stream insertion and extraction of bounded integers", "statement": "Writing a bounded integer to a standard stream writes the canonical decimal representation of its value, for every type that the streams support, including those stored in a character type. Reading a decimal number from a stream stores its value if that is a value of the type; otherwise an exception is thrown and the variable keeps its value (or the stream fails and the nearest value is stored, as for built-in integers). Exactly the number and the whitespace before it are consumed. Values that are written with whitespace in between are read back unchanged. Reading where there is nothing to read leaves the variable alone and makes the stream fail.", "quantifier": "every type, every value, every input text, every sequence of values and separators", "why_tests_cant": "Tests stream a few literal values through a string stream; the property is about every text and every type, and about the state of the stream and the variable after a failure.", "anchors": ["source/bounded/stream.cpp: operator<<, operator>>", "source/bounded/check_in_range.cpp: check_in_range"]}
{"id": "C66", "title": "Reading words into a string", "statement": "Reading from a stream into a string skips whitespace, replaces the content of the string by the characters up to the next whitespace, at most as many as the width of the stream if that is positive, leaves everything after them in the stream and resets the width. If there is nothing to read, the string is unchanged and the stream fails. No character is lost, also if memory runs out while reading. Words that are written with whitespace in between are read back unchanged.", "quantifier": "every input, every width, every point at which memory runs out, every sequence of words and separators", "why_tests_cant": "A test reads a few literal inputs; the property is about every text, width and failure point.", "anchors": ["source/containers/string.cpp: operator>>, operator<<"]}
{"id": "C67", "title": "Integer literals with the suffix _bi", "statement": "An integer literal followed by `_bi` is the bounded constant with the value that the same literal has without the suffix; a literal for which this is impossible is rejected at compile time.", "quantifier": "every spelling of an integer literal", "why_tests_cant": "The test checks seven literals; there are infinitely many spellings.", "anchors": ["source/bounded/literal.cpp: literal_impl, operator\"\"_bi"]}
{"id": "C68", "title": "Operators that mix bounded and built-in integers", "statement": "An operator applied to a bounded integer and a built-in integer, in either order, gives the exact mathematical result in a built-in type that holds it, whatever the two types are, or does not compile. Compound assignment to a bounded variable stores the exact result or is undefined if it is out of range; compound assignment to a built-in variable stores the exact result. Shifting a byte by any accepted count gives the low eight bits of the shifted number.", "quantifier": "every pair of types and every pair of values, both orders of the operands", "why_tests_cant": "Tests try one pair of values per operator, with small values of type int; the property is about every built-in type and the extreme values, where promotion and overflow matter.", "anchors": ["source/bounded/arithmetic/operators_builtin.cpp: BOUNDED_INTEGER_MIXED_OPERATOR_OVERLOADS", "source/bounded/arithmetic/increment_decrement.cpp", "source/bounded/arithmetic/byte.cpp: operator<<, operator>>"]}
{"id": "C69", "title": "Scope guards run exactly when they should", "statement": "The function of a scope guard runs exactly once, when the scope of the guard is left, however it is left; the function of a guard for failure runs exactly when the scope is left by an exception. A dismissed guard runs nothing, and moving a guard hands its duty over. This holds for guards nested in any way, also while exceptions are already propagating, with functions that use guards and exceptions themselves.", "quantifier": "every program built from scopes, guards, dismissals, moves, exceptions and handlers; every history of guard objects that are not nested; every number of exceptions already propagating", "why_tests_cant": "A test leaves one scope in one way; the property is about every nesting of guards, unwinding and handlers.", "anchors": ["source/bounded/scope_guard.cpp: scope_guard", "source/bounded/scope_fail.cpp: scope_fail"]}
{"id": "C70", "title": "A function wrapper without allocation behaves like the callable it holds", "statement": "A wrapper that stores a callable in place behaves, over any history of construction, assignment, copies, calls and destruction, as a variable that holds its own copy of the callable: the same results, the same effects, and copies do not share state. No valid wrapper is confused with the state that an optional uses for being empty.", "quantifier": "every type of callable that is accepted, every capacity and alignment, every history", "why_tests_cant": "Tests call a few lambdas; the property is about every type of callable with state, and every sequence of copies and calls.", "anchors": ["source/containers/trivial_inplace_function.cpp: trivial_inplace_function, trivial_inplace_function_impl, padded, tombstone"]}
{"id": "C71", "title": "Maps used by key behave as functions from keys to values", "statement": "Inserting, erasing and looking up by key makes a sorted map and an unsorted map behave as a function from keys to values, with everything that is returned: whether an element was inserted, how many were erased, the value that was found, the size. The two kinds of map cannot be told apart in this way. A multimap behaves as a function from keys to lists of values in the order of insertion; erasing a key removes all its values and returns their number. Inserting an rvalue moves from it exactly if it is inserted. A map whose greatest size is the number of possible keys has room for every insertion.", "quantifier": "every history of insertions, erasures, lookups and size queries, every contents, every strict weak order or equivalence of keys", "why_tests_cant": "Tests use maps of at most four elements and one operation each; the property is about whole histories and all orders of keys.", "anchors": ["source/containers/algorithms/keyed_erase.cpp: keyed_erase", "source/containers/algorithms/keyed_insert.cpp: keyed_insert", "source/containers/flat_map.cpp: lazy_insert, find, maximum_map_size", "source/containers/linear_map.cpp: find, lazy_insert", "source/containers/lookup.cpp: lookup"]}
{"id": "C72", "title": "Strings keep their text through conversions, and compare and hash by it", "statement": "Every string that is made from a literal has exactly the characters of the literal, including null characters. Converting a string any number of times between the string types of the library and those of the standard library keeps its text. Passing the address of its characters keeps the text exactly if there is no null character in it, and otherwise cuts it off at the first. Strings of any two types that can be compared are equal exactly if they have the same text, their order is the dictionary order of the text whatever their types are, and strings with the same text have the same hash.", "quantifier": "every text of at most 2^52 - 1 characters with every byte value, every chain of conversions, every pair of types that can be compared, both signednesses of char", "why_tests_cant": "Tests convert and compare a few short ASCII texts; the property is about all texts, including null characters and bytes above 127, and about chains of conversions.", "anchors": ["source/containers/static_string.cpp: static_string, static_null_terminated_string, operator\"\"_s, operator\"\"_null_terminated", "source/containers/string_view.cpp: string_view, operator\"\"_sv", "source/containers/string.cpp: string", "source/containers/subrange.cpp: operator std::basic_string_view"]}
{"id": "C73", "title": "The result of min and max refers to an object that exists", "statement": "min, max and extreme return a reference to one of their arguments or a value of its own, and never a reference to an object that ended when the function returned. For lvalues of the same type the result refers to the first of the least (greatest) arguments, and is constant if one of them is. If one of several arguments is an rvalue, or the types are different, the result is a value, for bounded integers as for all other types.", "quantifier": "every number of arguments, every combination of types, value categories and constness, every strict weak order, all values", "why_tests_cant": "The tests compare values in constant expressions and check the result types for two arguments of int and of a test type, not of bounded integers; which object a run-time result refers to, and for three or more arguments, is not checked.", "anchors": ["source/bounded/minmax.cpp: extreme_value, extreme_function, min, max", "source/bounded/common_type_and_value_category.cpp: add_common_cv_reference, common_type_and_value_category", "source/containers/algorithms/zip.cpp: zip_impl, as_tuple"]}
{"id": "C74", "title": "Algorithms of the standard library see wrapped iterators as positions", "statement": "legacy_iterator wraps an iterator with bounded differences for algorithms of the standard library. Whatever such an algorithm does with the wrapped iterators of a range - copying, moving in both directions, comparing, ordering and subtracting them, reading and writing elements, each step depending on what it has seen so far - it sees exactly what it would see with plain positions of the range, leaves the same elements, and nothing that is valid for positions is undefined. In particular the distance from the begin to the end is the number of elements, and a wrapped forward iterator can be default constructed.", "quantifier": "every number of elements, every program over any number of iterator variables with any control flow, all element values, wrapped iterators with and without default constructor", "why_tests_cant": "The tests are static assertions on a few iterator types; no algorithm is run on them, no difference is computed, and the number of programs and sizes is unbounded.", "anchors": ["source/containers/legacy_iterator.cpp: legacy_iterator, non_optional, make_legacy_iterator, maybe_legacy_iterator", "source/containers/legacy_range.cpp: legacy_range", "source/containers/contiguous_iterator.cpp: contiguous_iterator"]}
{"id": "C75", "title": "Addresses of elements stay valid as long as nothing makes them invalid", "statement": "The address of an element of a vector, sbo_vector or static_vector refers to that element through any operation for which there is room and that changes only what comes after the element: push_back, append, insertion and erasure behind it, resize, assignment of fewer elements, whether the operation succeeds or throws. An operation that succeeds or does nothing leaves all addresses valid when it throws. Move construction, move assignment and swap of vectors leave the elements where they are, in the hands of the other vector. The address of an element of a linked list, doubly or singly linked, refers to it until an operation erases the element or assigns to it; insertion, splicing to other lists, swap and moves of lists do not matter.", "quantifier": "every container, contents, capacity, position, history of operations (within what C25-C28, C31 and C32 ask), pattern of exceptions and of failing allocations", "why_tests_cant": "Iterators and references are invalidated by reallocation, which depends on the history of sizes and capacities; a test with a stale pointer reads memory that usually still holds the old value. It concerns every element and every interleaving of operations.", "anchors": ["source/containers/vector.cpp: vector", "source/containers/sbo_vector.cpp: sbo_vector", "source/containers/static_vector.cpp: static_vector", "source/containers/append.cpp: append", "source/containers/insert.cpp: insert", "source/containers/algorithms/erase.cpp: erase", "source/containers/bidirectional_linked_list.cpp: bidirectional_linked_list", "source/containers/forward_linked_list.cpp: forward_linked_list"]}
{"id": "C76", "title": "Growing a container costs constant time per element on average", "statement": "Whatever is done with a container that starts out empty - push_back, append, insert, resize, assignment, erasure, in any order, with exceptions and failing allocations - all the times its storage is replaced move, taken together, at most two elements per element the user asked to add, and the storage is replaced at most log2 of that number plus two times. (reserve and shrink_to_fit, by which the user asks for storage, are excepted.)", "quantifier": "every container that grows, every history without reserve and shrink_to_fit (within what C25-C28 ask), every pattern of exceptions and failing allocations", "why_tests_cant": "It is a statement about the sum of costs over histories of any length. A growth policy that adds a constant instead of doubling passes every functional test.", "anchors": ["source/containers/reallocation_size.cpp: reallocation_size", "source/containers/push_back.cpp: push_back", "source/containers/append.cpp: append", "source/containers/insert.cpp: insert", "source/containers/resize.cpp: resize", "source/containers/assign.cpp: assign"]}
{"id": "C77", "title": "How often and with what the searches call the function they are given", "statement": "find_if, find_if_not, find_last_if, all, any, none, count_if, mismatch, min_element, max_element, is_sorted and is_partitioned call the predicate or comparison for the elements in order, once each (is_partitioned asks about one element a second time, so up to one call more than there are elements), and stop at the first answer that settles the result. partition_point, lower_bound and upper_bound make at most floor(log2 n) + 1 calls for n elements, which no algorithm can undercut; equal_range twice, binary_search one more. All of this holds for any function object, also one that has state, contradicts itself or throws: the algorithm never leaves the range, changes nothing, returns a position within the range, and the result is what the answers it got say.", "quantifier": "every range, every function object: all sequences of answers and exceptions, state included", "why_tests_cant": "A test uses a handful of well-behaved predicates. That no sequence of answers makes a binary search leave the range, and that the number of calls is at most logarithmic for every size and optimal, are statements about all decision trees.", "anchors": ["source/containers/algorithms/find.cpp: find_if, find_last_if, find_if_not", "source/containers/algorithms/all_any_none.cpp: all, any, none", "source/containers/algorithms/count.cpp: count_if", "source/containers/algorithms/mismatch.cpp: mismatch", "source/containers/algorithms/minmax_element.cpp: min_element, max_element", "source/containers/algorithms/partition.cpp: partition_point, is_partitioned", "source/containers/algorithms/binary_search.cpp: lower_bound, upper_bound, equal_range, binary_search", "source/containers/algorithms/sort/is_sorted.cpp: is_sorted"]}
{"id": "C78", "title": "Partitioning and sorting keep every element when the comparison throws", "statement": "If the predicate of partition, or the comparison of iterator_partition, sort_exactly_n or new_sort throws, at whatever call, all elements are still in the range, in some order, and nothing outside the range has changed; the fixed-size routines have not changed anything yet. partition and the fixed-size routines (other than the branchless one for three elements) do so for every function object, even one that contradicts itself, and then still end within the range. If the comparison does not throw, the result is as if it never could. The merges are exceptions to this: an exception in fixed_size_merge_sort, merge_relocate_second_range or chunked_insertion_sort leaves places of the range without objects.", "quantifier": "every range, every function object (all sequences of answers, at every call an exception), every element type", "why_tests_cant": "There is one history per call that may throw and per sequence of answers before it; a test throws at a few calls for a few ranges.", "anchors": ["source/containers/algorithms/partition.cpp: partition, iterator_partition", "source/containers/algorithms/sort/sort.cpp: new_sort, introsort", "source/containers/algorithms/sort/sort_exactly_n.cpp: sort_exactly_n", "source/containers/algorithms/sort/sort_exactly_3.cpp: sort_exactly_n_relocate_impl", "source/containers/algorithms/sort/sort_exactly_4.cpp: sort_exactly_n_relocate_branchless", "source/containers/algorithms/sort/fixed_size_merge_sort.cpp: fixed_size_merge_sort", "source/containers/algorithms/sort/merge_relocate_second_range.cpp: merge_relocate_second_range", "source/containers/algorithms/sort/chunked_insertion_sort.cpp: chunked_insertion_sort"]}
{"id": "C79", "title": "Sorting needs at most n log n comparisons", "statement": "new_sort makes at most n (6 log2 n + 4 + h) comparisons to sort n elements, h being the number per element that the standard heap functions need, for every input: no arrangement of the elements makes it quadratic.", "quantifier": "every range of every size, every strict weak order", "why_tests_cant": "The bad inputs of a quicksort are rare and depend on how it chooses its pivot; no test of some inputs bounds all of them.", "anchors": ["source/containers/algorithms/sort/sort.cpp: new_sort, introsort", "source/containers/algorithms/partition.cpp: iterator_partition", "source/containers/algorithms/sort/is_sorted.cpp: is_sorted"]}
{"id": "C80", "title": "Removing duplicates and erasing lose no kept element when the comparison throws", "statement": "Whatever the comparison of unique, unique_copy, unique_merge_copy or unique_inplace_merge answers and at whatever call it throws, exactly the objects that existed before still exist (the temporary of unique_inplace_merge is gone), and only objects of the given ranges can have changed. If unique's comparison is transitive and throws, every element is still in the range or one that is equal to it is; if the predicate of erase_if of a vector throws, every element for which it is false is still there. If nothing throws, the result is that of the version that cannot throw. unique_inplace_merge is not to lose elements either.", "quantifier": "every range, every function object (all sequences of answers, at every call an exception, failing allocation), every element type and kind of move assignment", "why_tests_cant": "There is one history per call that may throw; tests use comparisons that do not throw.", "anchors": ["source/containers/algorithms/unique.cpp: unique, unique_copy, unique_merge_copy, unique_inplace_merge", "source/containers/algorithms/erase.cpp: erase_if"]}
{"id": "C81", "title": "Inserting into a map when something throws", "statement": "If a comparison, the allocation, or the construction of the element throws while one element is looked up or inserted (flat_map, flat_multimap, linear_map), the map is as it was before. If inserting a range into a linear_map throws, all old elements keep their places, and keys that were there before are still found with the same values. If nothing throws, the result is that of the version that cannot throw. Inserting a range and upsert are to leave a valid map as well (sorted, unique keys, no lost elements).", "quantifier": "every map contents, key, range and capacity; every function object and allocator (all sequences of answers, at every call an exception)", "why_tests_cant": "There is one history per call that may throw and per sequence of answers before it.", "anchors": ["source/containers/flat_map.cpp: find, lazy_insert, insert, upsert, merge_sorted_and_unsorted", "source/containers/linear_map.cpp: find, lazy_insert, insert, remove_duplicates", "source/containers/append.cpp: append", "source/containers/insert.cpp: insert", "source/containers/lazy_push_back.cpp: lazy_push_back", "source/containers/lookup.cpp: lookup", "source/containers/algorithms/keyed_binary_search.cpp: keyed_lower_bound, keyed_upper_bound"]}
{"id": "C82", "title": "Spans and views of bytes refer to exactly the given elements", "statement": "A span of the elements i to j of an array has j - i elements, its element k is the element i + k, and assigning to it changes that element and nothing else. as_bytes of n elements has n * sizeof bytes; its byte k is the byte k % sizeof of the element k / sizeof, and assigning to it changes that byte and nothing else, so that copying all bytes to another array makes its elements equal. The size of as_bytes is exact and always compiles. An index that is not less than the size is to be rejected.", "quantifier": "every array, element size, sub-range, index and memory contents; every size of the widest type from 64 bits", "why_tests_cant": "Tests look at a few elements of a few small arrays, and not at what must stay unchanged; the greatest sizes cannot be allocated.", "anchors": ["source/containers/span.cpp: span", "source/containers/as_bytes.cpp: as_bytes, as_writeable_bytes", "source/containers/contiguous_iterator.cpp: contiguous_iterator", "source/containers/maximum_array_size.cpp: maximum_array_size, array_size_type", "source/bounded/arithmetic/pointer.cpp: operator+"]}
{"id": "C83", "title": "Making an array takes every element exactly once", "statement": "to_array gives the elements of the range in their order. It calls begin at most once, obtains each element exactly once from first to last, and goes to no position after the last one, so that single-pass ranges work. If the type is wrong about the size, it takes the first elements or is undefined. Every element of make_array_n(n, value) is the value, also if value is an rvalue, which is moved from after all copies were made.", "quantifier": "every size and range, every element type", "why_tests_cant": "Whether an element is obtained twice, or a value copied after it was moved from, can only be seen with special types, for the sizes that are tried.", "anchors": ["source/containers/to_array.cpp: to_array, make_array_n"]}
{"id": "C84", "title": "Iterators of views are usable exactly as long as what they refer to exists", "statement": "begin() of a view made with transform and filter, of a container or of other views, given as lvalues or rvalues, starts a loop over the elements of the container, changed and selected by the functions in order. The iterator can be used later, whatever the program does, as long as the container (or the view that it was moved into) and every view that has a function that is not small and trivial exist: *it gives the current element as the functions change it, and ++it goes to the next element that is kept now. If all functions are small, the views need not exist any more. After one of the objects is gone, *it or ++it is undefined.", "quantifier": "every tower of views, every function, every history of making, moving and destroying containers and views and of assignments to elements", "why_tests_cant": "A dangling reference often still gives the right answer in a test; which histories leave an iterator usable depends on all objects of the program.", "anchors": ["source/containers/adapt.cpp: adapt, get_iterator_traits", "source/containers/adapt_iterator.cpp: adapt_iterator", "source/containers/reference_or_value.cpp: reference_or_value", "source/containers/value_wrapper.cpp: value_wrapper", "source/containers/default_adapt_traits.cpp: default_dereference, default_add, default_compare", "source/containers/algorithms/transform.cpp: transform", "source/containers/algorithms/filter.cpp: filter"]}
{"id": "C85", "title": "Appending part of a list to the list itself adds exactly that part", "statement": "append(list, range) for a doubly linked list and append_after(list, position, range) for a singly linked one, the range being elements of another list or of the same list, end, and insert copies of exactly the elements that were in the range before the call; everything else of all lists stays the same.", "quantifier": "every state of any number of lists, every range of one of them, every position", "why_tests_cant": "Whether a loop over a list that grows meanwhile ends depends on where the range ends and where the position is; a test that does not end tells nothing.", "anchors": ["source/containers/append.cpp: append_impl", "source/containers/append_after.cpp: append_after_impl", "source/containers/bidirectional_linked_list.cpp: lazy_push_back", "source/containers/forward_linked_list.cpp: lazy_insert_after", "source/containers/algorithms/copy_or_relocate_from.cpp: copy_or_relocate_from"]}
{"id": "C86", "title": "Removing the elements equal to an element of the container removes exactly those", "statement": "list::remove(value) and erase_if(container, equal_to(value)) of the contiguous containers, value being a reference to an element of the container itself, remove exactly the elements that were equal to value when the function was called, and keep the order of the others.", "quantifier": "every contents, every element as the argument, every effect of a move on the object that is moved from, every equality", "why_tests_cant": "Whether it works depends on where the element is, where elements equal to it are, and on what follows: c.remove(c.front()) is undefined only if the list has another element, and a read of a destroyed element often gives the old value.", "anchors": ["source/containers/std/list.cpp: remove", "source/containers/std/inplace_vector.cpp: erase", "source/containers/algorithms/erase.cpp: erase_if", "source/bounded/comparison_function_object.cpp: equal_to"]}
{"id": "C87", "title": "A key function that throws does not make a radix sort lose elements", "statement": "If the function that gives the keys throws an exception while ska_sort or double_buffered_ska_sort runs, whichever of its calls it is, the range that was to be sorted still holds all of the elements, in some order.", "quantifier": "every range, every key made of booleans, integers, lists and tuples, every call of the key function as the one that throws", "why_tests_cant": "The sorts call the key function a number of times that depends on the elements, and what has been moved where at each of those calls depends on all calls before; a test throws at a few of them.", "anchors": ["source/containers/algorithms/sort/ska_sort.cpp: ska_sort", "source/containers/algorithms/sort/inplace_radix_sort.cpp: inplace_radix_sort", "source/containers/algorithms/sort/double_buffered_ska_sort.cpp: double_buffered_ska_sort"]}
{"id": "C88", "title": "The declared ranges of results are as small as possible", "statement": "The type of a + b, a - b, -a, a * b, a / b, a << b, a >> b, a & b, abs, min, max, clamp, log, pow and round_up_divide is the integer<lo, hi> with the smallest range that has all results: lo and hi are both results for some values of the operand types.", "quantifier": "all operand types (all ranges that compile), all values", "why_tests_cant": "A range that is too large is never noticed by tests of values, and tests of the declared ranges look at a few pairs of types; the ranges are computed by case distinctions on the signs of the four bounds.", "anchors": ["source/bounded/arithmetic/plus.cpp: operator+", "source/bounded/arithmetic/divides.cpp: divides_operator_range", "source/bounded/arithmetic/multiplies.cpp: operator*", "source/bounded/arithmetic/unary_minus.cpp: operator-", "source/bounded/arithmetic/left_shift.cpp: operator<<", "source/bounded/arithmetic/right_shift.cpp: operator>>", "source/bounded/arithmetic/bitwise_and.cpp: operator&", "source/bounded/minmax.cpp: min", "source/bounded/clamp.cpp: clamp", "source/bounded/abs.cpp: abs", "source/bounded/log.cpp: log", "source/bounded/pow.cpp: pow", "source/bounded/arithmetic/round_up_divide.cpp: round_up_divide"]}
{"id": "C89", "title": "Copying and relocating inside of one array", "statement": "copy, copy_backward and copy_truncate give the output exactly the values that the input had, return the ends of what was copied and change nothing else, also if input and output overlap, as long as the output of copy does not begin inside of the input (behind its first element) and the output of copy_backward does not end inside of it. Otherwise the elements before the overlap are repeated. uninitialized_relocate towards the front and uninitialized_relocate_backward towards the back leave every element in the output and nowhere else; the other directions are undefined if the ranges overlap. If the assignment of an element throws, the elements before it (for copy_backward: behind it) have been copied, the object that was assigned to holds what the assignment left, and nothing else has changed.", "quantifier": "all arrays, all positions of input and output, all numbers of elements, every assignment that throws and everything it may leave", "why_tests_cant": "Whether an overlap does harm depends on the distance of the ranges in relation to their length; tests have a few distances.", "anchors": ["source/containers/algorithms/copy.cpp: copy", "source/containers/algorithms/copy.cpp: copy_backward", "source/containers/algorithms/copy.cpp: copy_truncate", "source/containers/algorithms/uninitialized.cpp: uninitialized_relocate", "source/containers/algorithms/uninitialized.cpp: uninitialized_relocate_backward", "source/containers/algorithms/reverse_iterator.cpp: reverse_iterator"]}
{"id": "C90", "title": "Giving a variant or an optional a part of its own value", "statement": "If the argument of emplace, insert or assignment is the value of the variant or optional itself or a part of it (`expression = std::move(expression[negation].operand)`), the target afterwards holds what is made of the argument as it was before the call; if making it throws, nothing has changed.", "quantifier": "all alternatives, all values and all their parts, all constructors and assignments, throwing or not", "why_tests_cant": "Reading a destroyed object often still gives the old value, and tests pass arguments from elsewhere.", "anchors": ["source/tv/variant.cpp: emplace_impl", "source/tv/variant.cpp: assign", "source/tv/insert.cpp: insert", "source/tv/optional.cpp: initialize", "source/tv/optional.cpp: assign", "source/bounded/value_to_function.cpp: value_to_function"]}
{"id": "C91", "title": "Optional references", "statement": "An optional reference names one object or nothing: binding, rebinding (emplace), emptying and copying never change an object or another optional; what is read or written through it is the object it was last bound to; it compares equal to none exactly if it is not bound, and dereferencing is undefined exactly then.", "quantifier": "all histories of operations on any number of optional references and objects", "why_tests_cant": "That a rebinding does not write through the old reference shows only in histories in which several names of one object are mixed.", "anchors": ["source/tv/optional.cpp: optional_storage<T &>", "source/tv/optional.cpp: optional"]}
{"id": "C92", "title": "Swaps of elements that throw", "statement": "If exchanging two elements throws, reverse and the swap of two static_vectors or inplace_vectors let the exception out, both containers keep their sizes and every element is alive: the pairs before the failure have changed places, those behind it have not, and only the failed pair holds what the throwing call left. Without exceptions the range is reversed, the containers are exchanged. The same of partition, iterator_partition, the sorting of two to five elements in place, new_sort and ska_sort, whose function objects may throw too: all elements but the two of the failed exchange are in the range, in some order, and nothing outside of it has changed. If a comparison or an exchange throws while a range is inserted into a linear_map, the elements that were in the map are where they were.", "quantifier": "all lengths of both containers, all elements, every position of the failure", "why_tests_cant": "Which pair fails, and which of the two containers is longer, decides about the state that is left; tests do not throw from swaps.", "anchors": ["source/containers/algorithms/reverse.cpp: reverse", "source/containers/algorithms/partition.cpp: partition", "source/containers/algorithms/partition.cpp: iterator_partition", "source/containers/algorithms/sort/sort_exactly_n.cpp: sort_exactly_n_in_place", "source/containers/algorithms/sort/sort.cpp: new_sort, introsort", "source/containers/algorithms/sort/ska_sort.cpp: ska_sort", "source/containers/static_vector.cpp: swap", "source/containers/linear_map.cpp: remove_duplicates", "source/containers/std/inplace_vector.cpp: swap"]}
{"id": "C93", "title": "Optionals of static_vectors and of variants", "statement": "An optional of a static_vector or of a variant, nested to any depth, gives back what was stored: \"nothing\" at each level differs from every vector (also the empty and the full one), from every alternative and from \"nothing\" at every other level. As long as the size (or the index) has representations that no value uses, the optional is not larger than what it holds; how many there are is determined by the capacity or the number of alternatives.", "quantifier": "all element types, all capacities below 2^64, all numbers of alternatives, all nesting depths, all values", "why_tests_cant": "Tests look at one capacity and one or two levels; that no vector of any length and no deeper level shares a representation is a statement about all of them.", "anchors": ["source/bounded/tombstone.cpp: tombstone_member", "source/containers/static_vector.cpp: tombstone<containers::static_vector", "source/tv/variant.cpp: tombstone<tv::variant", "source/tv/variant_index.cpp: tombstone<tv::variant_index", "source/tv/optional.cpp: optional"]}
{"id": "C94", "title": "Counting elements and moving iterators one by one", "statement": "For ranges without random access, distance, linear_size and count_if give the exact number of elements (that meet the predicate) whenever the result type can represent it, and is_empty tells whether there are none. advance, next and prev reach exactly the position the offset names, forwards and backwards, anywhere in the range, and never leave the range on the way. mutable_iterator names the same element as the iterator it was given.", "quantifier": "all ranges and elements, all predicates, all difference and size types, all positions and offsets", "why_tests_cant": "The counters are bounded integers with limits taken from the types of the range; whether a counter can leave its type depends on the lengths of all ranges and all combinations of types, of which tests instantiate a handful.", "anchors": ["source/containers/algorithms/distance.cpp: distance", "source/containers/linear_size.cpp: linear_size", "source/containers/range_size_t.cpp: range_size_t", "source/containers/is_empty.cpp: is_empty", "source/containers/algorithms/count.cpp: count_if", "source/containers/algorithms/advance.cpp: advance", "source/containers/mutable_iterator.cpp: mutable_iterator"]}
{"id": "C95", "title": "More elements than the maximum size are refused", "statement": "A request that would give a container more elements than its maximum size (push_back, append, insert, resize, reserve, assign, construction from a range or from a count) throws an exception; growing operations then leave the container as it was. Up to the maximum reserve gives at least the requested capacity, or leaves the container as it was.", "quantifier": "all containers that can grow, all states, all sources and counts, all patterns of failed allocations and throwing elements", "why_tests_cant": "Maximum sizes are usually too large to be reached in a test; whether the size is checked before it is converted depends on the operation and on the types of the sizes.", "anchors": ["source/containers/append.cpp: append_impl", "source/containers/insert.cpp: insert", "source/containers/resize.cpp: resize_impl", "source/containers/exponential_force_reserve.cpp: exponential_force_reserve", "source/containers/bounded_vector.cpp: bounded_vector", "source/containers/assign_to_empty.cpp: assign_to_empty_impl", "source/containers/lazy_push_back.cpp: lazy_push_back", "source/containers/std/vector.cpp: reserve"]}
{"id": "C96", "title": "Containers and algorithms may be used together in any order", "statement": "A program may apply algorithms (reverse, partition, sort, ska_sort, copy and copy_backward inside the container, unique with erase_to_end, binary searches, comparisons) to a container at any point between its own operations: the container then has exactly the elements that the descriptions of the operations and algorithms give one after the other, with the same capacity, and can be used further. Two containers, of the same or of different kinds, are equal exactly if they have the same elements, whatever they went through, and order like their elements.", "quantifier": "all histories that mix container operations and algorithms, all elements and orders, all kinds of contiguous containers and both kinds of lists, all failures of allocations and of copies", "why_tests_cant": "Tests apply an algorithm to a few freshly built containers; that storage which has grown, shrunk, been erased from or was left by an exception looks the same to every algorithm is a statement about all histories.", "anchors": ["source/containers/begin_end.cpp: begin", "source/containers/compare_container.cpp: base", "source/containers/algorithms/compare.cpp: equal", "source/containers/algorithms/reverse.cpp: reverse", "source/containers/algorithms/partition.cpp: partition_t", "source/containers/algorithms/sort/ska_sort.cpp: unique_ska_sort", "source/containers/algorithms/unique.cpp: unique", "source/containers/algorithms/copy.cpp: copy_backward", "source/containers/algorithms/sort/sort.cpp: new_sort", "source/containers/algorithms/binary_search.cpp: binary_search", "source/containers/linked_list_helper.cpp: list_iterator", "source/containers/bounded_vector.cpp: bounded_vector", "source/containers/bidirectional_linked_list.cpp: bidirectional_linked_list"]}
{"id": "C97", "title": "Maps are equal exactly if they map the same keys to the same values", "statement": "Two maps of the same type compare equal exactly if every lookup gives the same result in both, no matter by which operations, in which order, they came to their elements. operator<=> is consistent with operator==, antisymmetric, and orders maps by their elements as in a dictionary.", "quantifier": "all pairs of histories of insertions, erasures and lookups on two maps, all key and mapped types, all key orders", "why_tests_cant": "Tests compare maps built from one literal each; that equality does not depend on how a map was built is a statement about all pairs of histories.", "anchors": ["source/containers/flat_map.cpp: flat_map_base", "source/containers/linear_map.cpp: basic_linear_map", "source/containers/map_value_type.cpp: map_value_type", "source/containers/compare_container.cpp: base", "source/containers/algorithms/compare.cpp: lexicographical_compare"]}
{"id": "C98", "title": "A program over bounded integers runs as it would on mathematical integers", "statement": "Take any program with variables of bounded integer types, expressions with all operators, min, max, abs, conversions between the types and assume_in_range, conditions, branches and loops. If it compiles, it takes the same branches and the same number of rounds as on unbounded mathematical integers, and ends with the same values; it is undefined only if a divisor is zero, a value outside of the declared range of a variable is assigned to it or the argument of assume_in_range is not in the range. It never throws.", "quantifier": "all programs, all numbers and types of variables, all initial values, all numbers of rounds of loops", "why_tests_cant": "Tests run a few expressions on literals; the claim quantifies over all programs and all runs of them.", "anchors": ["source/bounded/integer.cpp: integer", "source/bounded/comparison.cpp: operator<=>", "source/bounded/comparison.cpp: operator==", "source/bounded/arithmetic/plus.cpp: operator+", "source/bounded/arithmetic/modulus.cpp: operator%", "source/bounded/arithmetic/left_shift.cpp: operator<<", "source/bounded/arithmetic/bitwise_and.cpp: operator&", "source/bounded/minmax.cpp: extreme_value", "source/bounded/abs.cpp: abs", "source/bounded/arithmetic/unary_plus.cpp: operator+", "source/bounded/integer.cpp: assume_in_range"]}
{"id": "C99", "title": "A program cannot tell which container it uses", "statement": "A program uses a vector, a static_vector or an sbo_vector with all its operations, writes elements in place, and decides what to do next by what it reads with size, is_empty, at, [], front, back and iteration, and by which operations threw. It is defined, and reads exactly what a mathematical sequence gives; an index of any integer type that is not an index of an element makes at throw, and nothing else does. If no operation throws, its result and the elements at the end depend only on the elements at the start: neither the kind of the container nor its capacity can be observed.", "quantifier": "all programs (any decisions by the values read), all containers and contents, all index types and values, all results of allocations", "why_tests_cant": "A test runs one program on one container; that no program can distinguish two containers is a statement about all programs.", "anchors": ["source/containers/at.cpp: at", "source/containers/front.cpp: front", "source/containers/back.cpp: back", "source/containers/is_empty.cpp: is_empty", "source/containers/begin_end.cpp: end", "source/containers/bounded_vector.cpp: OPERATORS_BRACKET_SEQUENCE_RANGE_DEFINITIONS", "source/containers/static_vector.cpp: OPERATORS_BRACKET_SEQUENCE_RANGE_DEFINITIONS", "source/containers/sbo_vector.cpp: OPERATORS_BRACKET_SEQUENCE_RANGE_DEFINITIONS"]}
{"id": "C100", "title": "A map on a real container behaves as a map", "statement": "A flat_map or static_flat_map keeps its elements in a vector, static_vector or sbo_vector that grows, runs out of memory and has a greatest size. Any history of insert (one element or a range), erase, erase_if, upsert and reserve on it is a history of a mathematical map in which the operations that threw are left out: an operation that throws changes nothing, and it throws only if an element or an allocation does, or if the container has to grow beyond its greatest size. lookup then gives what the mathematical map gives, and insert returns where the key is and whether it is new. A flat_map whose key type has n values has room for all n keys.", "quantifier": "all maps, keys and mapped types with a strict weak order, all contents and capacities, all histories, all failing allocations and throwing elements", "why_tests_cant": "Tests use small maps in memory that does not run out, with key types of many values; the states in which the container must grow but cannot are not reached.", "anchors": ["source/containers/flat_map.cpp: maximum_map_size", "source/containers/flat_map.cpp: lazy_insert", "source/containers/flat_map.cpp: upsert", "source/containers/flat_map.cpp: merge_sorted_and_unsorted", "source/containers/flat_map.cpp: static_flat_map", "source/containers/insert.cpp: lazy_insert", "source/containers/lookup.cpp: lookup"]}
{"id": "C101", "title": "Operators on bounded integers never throw and never invent a value", "statement": "No operator, compound assignment, comparison, conversion or arithmetic function on bounded integers throws, whatever its operands hold: memory that was never written, values made without a check, tombstones. So no program made of them throws. If an operator gives a result, both operands held values of their types and the result is the mathematical one; if an operand holds no value of its type, the behavior is undefined, and a check of such an operand is undefined too rather than an exception.", "quantifier": "all pairs of bounded types, all contents of the memory of the operands (valid or not), all operators and all programs made of them", "why_tests_cant": "Tests only use operands that hold values of their types. What happens to operands that hold none, for every operator and range, cannot be sampled.", "anchors": ["source/bounded/arithmetic/plus.cpp: operator+", "source/bounded/integer.cpp: assume_in_range", "source/bounded/check_in_range.cpp: check_in_range", "source/bounded/minmax.cpp: extreme", "source/bounded/clamp.cpp: clamp", "source/bounded/arithmetic/unary_minus.cpp: operator-"]}
{"id": "C102", "title": "Views of views of views are what the same functions are on lists", "statement": "Views can be put on top of each other in any order and number: `transform`, `filter`, `take`, `drop`, `drop_exactly`, `drop_back_exactly`, `reversed`, `adjacent`, `concatenate_view` and `zip_smallest` of containers, generated ranges and other such views. A loop over the result sees exactly the elements that the same functions on lists give, `equal` of two such views compares these, and a view that still is random access or forward has iterators that work as positions in the list. Building it throws exactly if an exact number of elements is to be removed that are not there. After that nothing that is done with its iterators throws, not even if they leave the range.", "quantifier": "all pipelines of views of any depth, all containers and functions in them, all iterators that can be had from the result", "why_tests_cant": "Tests put one or two views on top of each other. The kind of each view selects other iterators for the next one, and there is no limit to the depth.", "anchors": ["source/containers/algorithms/transform.cpp: transform", "source/containers/algorithms/filter.cpp: filter", "source/containers/take.cpp: take", "source/containers/algorithms/drop.cpp: drop, drop_exactly", "source/containers/algorithms/reverse_iterator.cpp: reversed", "source/containers/algorithms/adjacent.cpp: adjacent", "source/containers/algorithms/concatenate_view.cpp: concatenate_view", "source/containers/algorithms/zip.cpp: zip_smallest"]}
{"id": "C103", "title": "Containers are filled from any range, and survive a range that throws", "statement": "`append`, `insert` and the constructors take any range of elements that convert to the element type: one with a size, one that has to be counted first, or one that can be gone through once only. The container then has its old elements and those of the range in order. Comparing, dereferencing and advancing the iterators of the range and converting an element may throw: then the container is as before, except that an append of a range which can be gone through only once keeps the elements that were added before. Nothing leaks, no element is constructed twice, and the operation is never undefined. A container made from a pipeline of views has the elements of the pipeline.", "quantifier": "all containers with contiguous storage, all contents and capacities, all ranges of any kind and length, every point at which the range can throw, all pipelines of views", "why_tests_cant": "Which loop is compiled depends on what the range can do, and every step of each loop can throw; tests use a few literal ranges that do not.", "anchors": ["source/containers/append.cpp: append", "source/containers/assign_to_empty.cpp: assign_to_empty", "source/containers/insert.cpp: insert", "source/containers/algorithms/copy_or_relocate_from.cpp: copy_or_relocate_from", "source/containers/algorithms/uninitialized.cpp: uninitialized_copy", "source/containers/get_source_size.cpp: get_source_size", "source/containers/linear_size.cpp: linear_size", "source/containers/size_then_use_range.cpp: size_then_use_range", "source/containers/take.cpp: check_size_not_greater_than"]}
{"id": "C104", "title": "Programs with iterators see what the standard says", "statement": "A program uses a vector in the style of the standard library (`vector` or `inplace_vector`). It keeps iterators in variables, moves, subtracts, dereferences and writes through them, passes them and elements of the vector to `push_back`, `emplace_back`, `insert`, `emplace`, `erase`, `resize` and the other functions, and goes on according to what it gets. As long as it uses an iterator only while the standard says that it is valid (no reallocation since, and it refers to an element before the place of the change; or the call threw and had no effect), every value it reads, every iterator it is given, every difference and every exception are those of a sequence with positions. An argument that is an element of the vector counts with its value before the call. Constructors and allocations may fail at any point.", "quantifier": "all programs (their next step depending on all they have read), all contents, capacities and positions, all points at which a constructor throws or an allocation fails, any number of iterator variables", "why_tests_cant": "A test is one program with one pattern of capacities and failures; whether an iterator that was taken long ago still refers to its element depends on the whole history of reallocations and shifts.", "anchors": ["source/containers/std/vector.cpp: vector", "source/containers/std/vector.cpp: object_is_in_storage", "source/containers/std/inplace_vector.cpp: inplace_vector", "source/containers/insert.cpp: insert", "source/containers/algorithms/erase.cpp: erase", "source/containers/lazy_push_back.cpp: lazy_push_back", "source/containers/resize.cpp: resize", "source/containers/shrink_to_fit.cpp: shrink_to_fit"]}
{"id": "C105", "title": "Programs with iterators of linked lists see what the standard says", "statement": "A program uses any number of lists that know their size (`std_containers::list` is one). It makes, copies, moves, swaps, assigns, resizes and destroys them, keeps iterators in variables, moves them in both directions, compares, dereferences and writes through them, passes them to `insert`, `erase`, `splice` (within a list and between lists), `emplace_back`, `emplace_front`, `remove_if` and the other functions, and goes on according to what it gets. As long as it uses an iterator with the list in which its element then is, every value it reads, every iterator and every count it is given and every exception are those of sequences of elements with identities. An iterator stays valid until its element is erased, also if the element gets into another list. Afterwards every list shows its elements forwards and backwards.", "quantifier": "all programs (their next step depending on all they have read), all numbers of lists and iterator variables, all contents, all points at which the construction of an element throws", "why_tests_cant": "A test is one program; whether an iterator that was taken long ago still refers to its element, and in which list it then is, depends on all splices, swaps and moves since.", "anchors": ["source/containers/std/list.cpp: sized_list", "source/containers/std/list.cpp: list", "source/containers/bidirectional_linked_list.cpp: bidirectional_linked_list", "source/containers/linked_list_helper.cpp: list_iterator", "source/containers/algorithms/erase.cpp: erase", "source/containers/algorithms/splice.cpp: splice", "source/containers/insert.cpp: insert", "source/containers/lazy_push_front.cpp: lazy_push_front", "source/containers/is_empty.cpp: is_empty"]}
{"id": "C106", "title": "Programs with iterators of maps see what the standard says", "statement": "A program uses a `flat_map`, a `flat_multimap` or a `linear_map` (on a vector, on a static container or on a small-buffer vector). It searches keys with `find`, the lower and upper bound and `lookup`, keeps the iterators it is given in variables, moves, subtracts and dereferences them, changes mapped values through them and through what `lookup` returns, erases the elements and ranges they refer to, inserts elements and ranges, and goes on according to what it gets. As long as it uses only iterators that are still valid (those before the place of a change, if the container has room), every element, iterator and count it reads, and which calls throw, are as for a sequence of elements in the order of their keys, or in the order of insertion for a linear map. An iterator to an element stays an iterator to that element when a greater key is inserted and there is room, and when an old key is inserted. The loop that erases elements while it iterates erases exactly those for which the condition holds.", "quantifier": "all programs (their next step depending on all they have read), all orders of keys, all contents, all containers under the map, all points at which constructions throw and allocations fail", "why_tests_cant": "A test is one program with some keys; whether an iterator taken earlier still refers to its element depends on where every key since then was inserted or erased and whether the storage moved.", "anchors": ["source/containers/flat_map.cpp: flat_map_base", "source/containers/flat_map.cpp: basic_flat_map", "source/containers/flat_map.cpp: basic_flat_multimap", "source/containers/linear_map.cpp: basic_linear_map", "source/containers/lookup.cpp: lookup", "source/containers/algorithms/keyed_binary_search.cpp: keyed_lower_bound", "source/containers/algorithms/keyed_binary_search.cpp: keyed_upper_bound"]}
{"id": "C107", "title": "Programs with iterators of singly linked lists see what the documentation says", "statement": "A program uses any number of singly linked lists. It makes, copies, moves, swaps, assigns and destroys them, keeps iterators in variables (also the position before the first element, and the end), advances, compares, dereferences and writes through them, passes them to `lazy_insert_after`, `append_after`, `erase_after`, `splice_after` and the other functions, and goes on according to what it gets. As long as it uses an iterator with the list in which its element then is, every value it reads, every iterator it is given and every exception are those of sequences of elements with identities. An iterator stays valid until its element is erased, also if the element gets into another list. Afterwards every list shows its elements, and every node that is allocated is in exactly one list.", "quantifier": "all programs (their next step depending on all they have read), all numbers of lists and iterator variables, all contents, all points at which the construction of an element throws", "why_tests_cant": "A test is one program; with links in one direction only, a wrong link shows up as a lost or shared tail of some list at some later time, and whether an old iterator still refers to its element depends on all splices, swaps and moves since.", "anchors": ["source/containers/forward_linked_list.cpp: forward_linked_list", "source/containers/linked_list_helper.cpp: list_iterator", "source/containers/append_after.cpp: append_after", "source/containers/algorithms/erase.cpp: erase_after", "source/containers/lazy_push_front.cpp: lazy_push_front", "source/containers/pop_front.cpp: pop_front", "source/containers/begin_end.cpp: begin", "source/containers/is_empty.cpp: is_empty"]}
{"id": "C108", "title": "Programs with several vectors and iterators of them see what the standard says", "statement": "A program uses any number of vectors. It constructs, copies, moves, swaps, assigns and destroys them, keeps iterators of any of them in variables, reads and writes through them, calls the functions of a vector with elements and ranges of the same or another vector, and goes on according to what it gets. As long as it uses an iterator only where the standard permits it (an iterator to an element stays valid when its vector is swapped or moved from, and then belongs to the other vector), every value it reads and every exception are those of independent sequences with positions. No two vectors ever share storage, and when all vectors are destroyed nothing is allocated.", "quantifier": "all programs (their next step depending on all they have read), all numbers of vectors and iterator variables, all contents and capacities, all points at which a construction throws or an allocation fails", "why_tests_cant": "A test is one program; whether an old iterator still refers to its element depends on all reallocations, moves, swaps and assignments of all vectors since it was obtained, and storage that two vectors own shows only when one of them is changed or destroyed.", "anchors": ["source/containers/std/vector.cpp: vector", "source/containers/bounded_vector.cpp: bounded_vector", "source/containers/uninitialized_dynamic_array.cpp: uninitialized_dynamic_array", "source/containers/assign.cpp: assign", "source/containers/insert.cpp: insert"]}
{"id": "C109", "title": "Reinterpreting bits as a bounded integer is exact or throws; hashes and formatted text depend on the value", "statement": "checked_bit_cast<T>(source) is accepted exactly when the source has as many bits as the storage of T. For every bit pattern it returns the value of the range of T whose representation is that pattern, and throws if no value of the range has it; casting the bits of a value back gives the value. std::hash of a bounded integer is the standard hash of its value in the storage type, so equal objects of one type have equal hashes. std::format writes what the storage type writes for the value; without a format specification that is the text of to_string, which to_integer reads back.", "quantifier": "all ranges, all bit patterns of all sizes, all values, all standard hashes and formatters of built-in types, all format specifications", "why_tests_cant": "A cast has 2^n bit patterns for storage of n bits and there is a different storage type and a different set of accepted patterns for every range; a wrong sign or a missing check shows only for some of them.", "anchors": ["source/bounded/checked_bit_cast.cpp: checked_bit_cast", "source/bounded/hash.cpp: hash", "source/bounded/format.cpp: formatter", "source/bounded/check_in_range.cpp: check_in_range"]}
{"id": "C110", "title": "Programs with several small-buffer or static vectors and iterators of them see sequences with positions", "statement": "A program has any number of sbo_vectors (or strings), or of static_vectors, and variables with iterators; it constructs, copies, moves, swaps, assigns and destroys vectors, calls all functions of C104, passes elements and ranges of one vector to functions of another, and reads and writes through iterators without saying into which vector they point. If it keeps to the rules, everything is defined, and everything it reads and every exception are those of sequences with positions. A move or swap of an sbo_vector takes iterators along if its elements are in the heap, and makes them unusable if they are inside of the object; a swap of static_vectors leaves iterators at their index; a vector that has been moved from is empty (or has its moved-from elements) and can be used. Nothing leaks.", "quantifier": "all programs with any number of vectors and iterators and any number of steps, all sizes of the small buffer and all maxima, all throwing elements and failing allocations, all element types", "why_tests_cant": "If an iterator survives depends on which of two places the elements are in and on the whole history of both vectors; tests look at one operation on one vector of one size at a time.", "anchors": ["source/containers/sbo_vector.cpp: sbo_vector", "source/containers/static_vector.cpp: static_vector"]}
{"id": "C111", "title": "Programs with several maps and iterators of them see sequences with positions", "statement": "A program has any number of flat_maps, flat_multimaps and linear_maps on vectors, each with its own order or equality of keys, and variables with iterators. It constructs maps from nothing, from ranges and from each other, copies, moves, assigns, swaps, compares and destroys them, calls all functions of C106, inserts ranges of one map into another, and reads and writes through iterators without saying into which map they point. If it keeps to the rules, everything is defined, and everything it reads, which maps are equal, every exception and every returned iterator are those of sequences with positions, and at every moment keys are in order (in a linear map: no key is there twice). A function of one map leaves other maps and their iterators alone; moves and swaps take iterators along; inserting all of one flat_map into another gives the union in which its own elements win, or changes nothing. If all maps are destroyed, nothing stays allocated.", "quantifier": "all programs with any number of maps and iterators and any number of steps, all minimum and maximum sizes of the vectors, all orders and equalities of keys, all throwing elements and failing allocations", "why_tests_cant": "Whether an iterator still refers to its element, or keys are still in order, depends on the histories of all maps that elements came through; tests use one map, or compare two after one operation.", "anchors": ["source/containers/flat_map.cpp: flat_map_base", "source/containers/linear_map.cpp: basic_linear_map", "source/containers/vector.cpp: vector"]}
{"id": "C112", "title": "Programs with several static or small-buffer maps and iterators of them see sequences with positions", "statement": "A program has any number of static_flat_maps, static_flat_multimaps and static_linear_maps (or maps on sbo_vectors), each with its own order or equality of keys, and variables with iterators. It constructs maps from nothing, from ranges and from each other, copies, moves, assigns, compares and destroys them, calls all functions of C106, inserts ranges of one map into another, and reads and writes through iterators. If it keeps to the rules, everything is defined, and everything it reads, which maps are equal, every exception (a static map that is full throws) and every returned iterator are those of sequences with positions; at every moment keys are in order. A function of one map leaves other maps and their iterators alone. std::swap exchanges two maps whatever moving does to elements; for small-buffer maps in the heap iterators go along. A small-buffer map that has been moved from is empty and can be used again.", "quantifier": "all programs with any number of maps and iterators and any number of steps, all capacities, small-buffer and maximum sizes, all orders and equalities of keys, all throwing elements and failing allocations, all effects of moving on elements", "why_tests_cant": "Where elements are, inside of the object or in the heap, depends on the history; whether iterators survive and moved-from maps are in order depends on it. Tests of static maps are single insertions and look-ups.", "anchors": ["source/containers/flat_map.cpp: static_flat_map", "source/containers/flat_map.cpp: static_flat_multimap", "source/containers/linear_map.cpp: static_linear_map", "source/containers/static_vector.cpp: static_vector", "source/containers/sbo_vector.cpp: sbo_vector"]}
{"id": "C113", "title": "Programs with iterators of remove_none see positions in a list of optional values", "statement": "remove_none(r), where r shows references to optionals, pointers, or optionals by value, is a forward range. A program has any number of its iterators, copies, increments, compares, dereferences and destroys them in any order, keeps references that they return, assigns through iterators and references, and changes, resets and fills elements of r in between. If it dereferences iterators only at elements that have a value and increments them before the end, everything is defined and it sees what it sees of positions in the list of optional values: begin() and ++ go to the first position that has a value at that moment, *it is the value that the element has now, iterators are equal if and only if their positions are. A loop sees the values in order and changes nothing, so a second loop sees the same; a loop that assigns changes every element that has a value and no other. A reference stays valid when the iterator goes on, and copying what a view shows leaves the objects as they are.", "quantifier": "all ranges of any length, all programs with any number of iterators, references and steps, all changes of elements in between, all effects of moving on objects", "why_tests_cant": "The iterator caches what it last saw, in one of four forms chosen by the type; whether a stale cache is ever shown depends on the history of all copies. The tests are loops over four constant arrays.", "anchors": ["source/containers/algorithms/remove_none.cpp: remove_none", "source/containers/algorithms/remove_none.cpp: remove_none_iterator", "source/containers/algorithms/remove_none.cpp: advance_to_first_value", "source/containers/algorithms/remove_none.cpp: iterator_inplace_data", "source/containers/algorithms/remove_none.cpp: wrapper", "source/containers/dereference.cpp: dereference"]}
{"id": "C114", "title": "Removing elements when an assignment throws", "statement": "erase_if of a container in an array and unique move elements towards the front by assignment. If an assignment throws, or the function object does, wherever that happens: nothing undefined happens, the exception gets out, the container has as many elements as before and all of them are alive, and nothing outside of it has changed. The elements before the failure that are to be kept are in front in their order, those behind it are where they were, and only the two objects of the failed assignment hold what it has left. If nothing throws, exactly the elements to be kept are in front.", "quantifier": "all lengths, all elements, all predicates with state that answer or throw as they like (unique: comparisons that do not contradict an equivalence relation), every assignment that throws and everything it may leave, all effects of moving", "why_tests_cant": "Which assignment throws decides about the state that is left; tests do not use elements whose assignment throws.", "anchors": ["source/containers/algorithms/erase.cpp: erase_if", "source/containers/algorithms/unique.cpp: unique", "source/containers/algorithms/unique.cpp: unique_common"]}
{"id": "C115", "title": "Programs that mix bounded and built-in integers", "statement": "A program with variables of bounded and of built-in integer types, with operators and comparisons that have at least one bounded operand, integer(x), casts, check_in_range, assignments, branches, loops and handlers runs as it would on mathematical integers, where only casts to built-in types and assignments to built-in variables reduce values to the type: same branches, same rounds, same exceptions at the same point, same values of all variables. It throws exactly when check_in_range is given a value outside of its range. It is undefined exactly when a divisor is zero, a value outside of its range is assigned to a bounded variable, or the least number of a signed built-in type is subtracted from a bounded one.", "quantifier": "all programs, all types of the variables, all initial values, any number of rounds, built-in types of all widths", "why_tests_cant": "Every combination of built-in and bounded types instantiates different conversions; tests sample a few of them with one operator each.", "anchors": ["source/bounded/arithmetic/operators_builtin.cpp: BOUNDED_INTEGER_MIXED_OPERATOR_OVERLOADS", "source/bounded/arithmetic/increment_decrement.cpp: operator++", "source/bounded/comparison_builtin.cpp: operator<=>", "source/bounded/integer.cpp: integer", "source/bounded/check_in_range.cpp: check_in_range"]}
{"id": "C116", "title": "Views whose functions throw", "statement": "For a view that is built from containers with transform, filter, take, drop, adjacent, concatenate_view of two ranges, zip_smallest of two ranges and join_with of ranges that are references to containers, in any nesting, with functions and predicates that may throw at any call: building it and calling begin either throws or gives a range with exactly the elements that the same functions on lists give. A loop over it that is stopped by an exception has seen a first part of these elements, and its iterator is left where it was: the loop can be taken up again there, any number of times, and when it ends it has seen every element exactly once and in order. Nothing undefined happens, and nothing throws unless a function does. The same holds for the chunks of chunk_by and the pieces of split and split_keep_delimiters of such a view, with comparisons that may throw.", "quantifier": "all views of these kinds in any nesting, all elements, all functions whose values depend on their arguments only, all calls at which they throw, any number of exceptions and attempts", "why_tests_cant": "The call that throws may be inside any of the nested iterators, in the middle of an increment or of the search for a first element; tests use functions that do not throw.", "anchors": ["source/containers/algorithms/transform.cpp: transform", "source/containers/algorithms/filter.cpp: filter", "source/containers/algorithms/find.cpp: find_if", "source/containers/take.cpp: take", "source/containers/algorithms/drop.cpp: drop", "source/containers/algorithms/adjacent.cpp: adjacent", "source/containers/algorithms/concatenate_view.cpp: concatenate_view", "source/containers/algorithms/zip.cpp: zip_smallest", "source/containers/algorithms/join_with.cpp: join_with", "source/containers/algorithms/split.cpp: split", "source/containers/algorithms/split.cpp: split_keep_delimiters", "source/containers/algorithms/chunk_by.cpp: chunk_by"]}
{"id": "C117", "title": "Algorithms over views whose functions throw", "statement": "all, any, none, maybe_find_if, count_if, distance, accumulate, min_element, max_element, mismatch, equal, lexicographical_compare, starts_with, is_sorted, is_partitioned, partition_point, lower_bound, upper_bound and binary_search, given views of containers in any nesting (as in C116) whose functions may throw, and functions of their own that may throw, either throw or give the result for the elements of the views as lists: min_element the first of the smallest elements, max_element the last of the greatest, the bounds of a sorted view the first element that is not less or that is greater, mismatch the positions behind the common part, lexicographical_compare the order of the first pair that is not equal and else of the lengths. They throw only if one of the functions does, and nothing undefined happens.", "quantifier": "all views in any nesting, all elements, all functions whose values depend on their arguments only, all calls at which they throw", "why_tests_cant": "Every call of a function may be the one that throws, and calls come from several layers of iterators and from the algorithm; tests call the algorithms on arrays with functions that do not throw.", "anchors": ["source/containers/algorithms/partition.cpp: partition_point", "source/containers/algorithms/partition.cpp: is_partitioned", "source/containers/algorithms/binary_search.cpp: lower_bound", "source/containers/algorithms/binary_search.cpp: binary_search", "source/containers/algorithms/sort/is_sorted.cpp: is_sorted", "source/containers/algorithms/starts_with.cpp: starts_with", "source/containers/algorithms/all_any_none.cpp: all", "source/containers/algorithms/maybe_find.cpp: maybe_find_if", "source/containers/algorithms/count.cpp: count_if", "source/containers/algorithms/distance.cpp: distance", "source/containers/algorithms/accumulate.cpp: accumulate", "source/containers/algorithms/minmax_element.cpp: min_element", "source/containers/algorithms/mismatch.cpp: mismatch", "source/containers/algorithms/compare.cpp: equal"]}
{"id": "C118", "title": "Joined ranges that a throwing function returns by value", "statement": "A loop over join or join_with of ranges that are returned by value, by functions that may throw at any call and over a view that may throw itself, sees all elements of the joined ranges, or a first part of them and stops with the exception. Nothing undefined happens in such a loop, and nothing throws unless a function does. The iterator of a loop that was stopped is left where it was, and the loop can be taken up again there.", "quantifier": "all views in any nesting, all ranges and joiners of any length, all functions whose values depend on their arguments only, all calls at which they throw", "why_tests_cant": "The range that is current is state of the view that all its iterators share, and the exception may come in the middle of an increment that has changed it; tests use functions that do not throw.", "anchors": ["source/containers/algorithms/join_with.cpp: with_inner_range", "source/containers/algorithms/join_with.cpp: join_with", "source/tv/variant.cpp: emplace"]}
{"id": "C119", "title": "Containers filled from views whose functions throw", "statement": "append, insert and the constructors of a container, given a view whose functions may throw at any call (a filter, a transform, and so on, in any nesting) and whose elements may throw when they are converted, put all elements of the view into the container, once each and in order, or throw. If they throw, the container has the elements and the capacity it had (a new one is empty), whichever of the two passes over the view throws, and also if the exception comes after the last element has been copied. They throw only if a function, a conversion or an allocation does, or if the elements do not fit. A view that can be gone through only once is appended element by element to a container that can reserve; then the elements before the exception stay. assign makes the elements of the view the elements of the container; if it throws, the container is empty if its elements are trivially copyable, and otherwise has the first elements of the view followed by old ones, but for the one to which an assignment has thrown.", "quantifier": "all containers, contents, capacities and positions, all views in any nesting and of any length, all functions whose values depend on their arguments only, all calls of either pass at which they throw, all conversions, all allocation failures", "why_tests_cant": "A view without a size is gone through twice, and the second pass may throw where the first did not, when room has been made and elements have been moved away; a filter may even throw after the last element has been constructed. Tests use views whose functions do not throw.", "anchors": ["source/containers/append.cpp: append", "source/containers/insert.cpp: insert", "source/containers/assign_to_empty.cpp: assign_to_empty", "source/containers/assign.cpp: assign", "source/containers/algorithms/copy.cpp: copy_truncate", "source/containers/linear_size.cpp: linear_size", "source/containers/algorithms/uninitialized.cpp: uninitialized_copy", "source/containers/algorithms/filter.cpp: filter"]}
{"id": "C120", "title": "Concatenating views whose functions throw", "statement": "concatenate of any number of views, whose functions may throw at any call (filters, transforms, and so on, in any nesting) and whose elements may throw when they are converted, returns a new container with the elements of all views, once each and in order, or throws. If it throws, nothing is leaked and all memory is as it was before, whichever of the passes over whichever view throws, and however many elements of it and of the views before it have been copied. It throws only if a function, a conversion or an allocation does, and always if a conversion does.", "quantifier": "all numbers of views in any nesting and of any length, with and without a known size, all functions whose values depend on their arguments only, all calls of any pass at which they throw, all conversions, all allocation failures, all types of containers with contiguous storage", "why_tests_cant": "A view without a size is gone through four times, and any pass may throw where the ones before did not, when the result is partly filled. Tests use arguments whose functions do not throw, and one combination of sizes.", "anchors": ["source/containers/algorithms/concatenate.cpp: concatenate", "source/containers/append_into_capacity.cpp: append_into_capacity", "source/containers/get_source_size.cpp: get_source_size", "source/containers/linear_size.cpp: linear_size", "source/containers/algorithms/uninitialized.cpp: uninitialized_copy"]}
{"id": "C121", "title": "Linked lists filled from views whose functions throw", "statement": "append to a doubly linked list (with or without a counted size) and append_after to a singly linked list, with a view whose functions may throw at any call (filters, transforms, and so on, in any nesting) as the source, put the elements of the view into the list, once each and in order, or throw. If they throw, the list holds its former elements and the elements of the view that were reached before the exception, and no others; every list is still linked in both directions, a size that is counted is right, positions refer to the same elements as before, and no node is lost. A list constructed from such a view has all of its elements, or the construction throws and nothing is left behind; insert into a doubly linked list at any position inserts all of them, or throws and changes nothing. After assign a list holds the elements of the view and nothing else; if assign throws, it holds the values assigned before, at most one element that an assignment left half done, and what was there of the others. If the functions do not throw, each of these operations stops exactly at the first conversion, assignment or allocation that does. These operations throw only if a function, a conversion or an allocation does, and always if a conversion or an allocation for an element does.", "quantifier": "all views in any nesting and of any length, all functions whose values depend on their arguments only, all calls at which they throw, all conversions, all allocation failures, any number of lists with any elements, all positions", "why_tests_cant": "A view throws when it is compared with its end, dereferenced or incremented, so an exception can come before an allocation, in a node that is not linked yet, or when the last element is already in the list. Tests use sources that do not throw and one position.", "anchors": ["source/containers/append.cpp: append", "source/containers/append_after.cpp: append_after", "source/containers/insert.cpp: insert", "source/containers/assign.cpp: assign_impl", "source/containers/algorithms/copy.cpp: copy_truncate", "source/containers/algorithms/copy.cpp: copy_truncate_after", "source/containers/assign_to_empty.cpp: assign_to_empty", "source/containers/algorithms/copy_or_relocate_from.cpp: copy_or_relocate_from", "source/containers/linked_list_helper.cpp: make_node", "source/containers/std/list.cpp: list"]}
