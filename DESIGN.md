# Formal model of bounded-integer in Lean 4

The C++ sources in `/repo` are read as text; nothing is compiled or run. Every
Lean definition that models code carries a comment with the file and lines it
models. Theorems are about these models.

## Layout

* `lean/Verif/Base` - C++ integers (`CInt`), outcomes (`Res`), histories of
  operations (`Hist`).
* `lean/Verif/Bounded` - bounded integers: arithmetic, comparison, parsing, ...
* `lean/Verif/Tv` - optional, variant, tuple, visit.
* `lean/Verif/Containers` - the vector family on an explicit memory.
* `lean/Verif/Lists` - linked lists on an explicit heap of nodes.
* `lean/Verif/Algo` - algorithms on an explicit memory (sorting, partition,
  searching, unique, ...).
* `lean/Verif/Views` - lazy ranges.
* `lean/Verif/Maps` - flat_map, flat_multimap, linear_map.
* Models are in `<Name>.lean`; larger proofs in `<Name>Props.lean`. Theorems
  that state a property are named `Cxx_...`; each has an `example` nearby that
  shows its hypotheses are met by a concrete non-trivial case.
* `lean/Verif.lean` imports everything. `MANIFEST.json` maps properties to
  theorem names; `seeded/LOG.jsonl` logs the seeded-bug experiments.

## Trusted base

* The Lean 4.33.0 kernel, and the axioms `propext`, `Classical.choice`,
  `Quot.sound`. No theorem depends on any other axiom; there is no `sorry`,
  `admit`, `native_decide` or `bv_decide`.
* The faithfulness of the models to the C++ text (comments cite file and
  lines). Simplifications are listed below and in the comments.
* C++ semantics as encoded in `Verif/Base`: two's complement integers (C++20),
  modular conversion to narrower types, modular unsigned arithmetic, undefined
  behaviour for signed overflow, division by zero, MIN / -1, shift counts out
  of range; integer promotion to 32-bit `int`; reading storage without a live
  object, constructing over a live one, out of range indexing are undefined.
* External submodules that are not in the repository and are therefore
  assumptions: `numeric_traits` (`max_signed_t`/`max_unsigned_t` are the W-bit
  types for some W >= 64; `min_value`/`max_value`), `operators` (`a - b` is
  `a + -b`, `a op= b` is `a = a op b`, postfix forms, bracket/arrow forwarding),
  `std_module` (std::sort, std::make_heap/sort_heap, std::search,
  std::inplace_merge behave as the C++ standard says).
* A violated `BOUNDED_ASSERT`, `assume_in_range` or `std::unreachable` is
  undefined behaviour.

## Conventions

* Undefined behaviour is a distinct outcome (`.ub`, or `none` where there are
  no other failures), an exception is another (`.exn`), a rejected program
  (static_assert, constraint failure) is `none` of an `Option`. Theorems state
  explicitly which outcome occurs.
* Iterators into a sequence are positions (`Nat`) in a list, pointers are
  addresses in an explicit heap where pointer structure matters (linked lists)
  or slots in an explicit memory where object lifetime matters (vectors).
* Loops are recursive functions with a proven termination measure, or with
  fuel whose exhaustion is undefined behaviour (so that a theorem that excludes
  undefined behaviour also proves termination).
* When the code violates a property, the negation is proved with a concrete
  witness (`Cxx_..._violated`) and the positive theorem is named `..._partial`
  with the missing part in its comment.
* Templates, overload resolution, concepts and reference categories are not
  modelled: the model starts after the compiler has selected an overload.

## What the models leave out

**Bounded.** Types are their two bounds; the built-in type that stores a value
is computed from them as in the code. `constexpr` evaluation is not
distinguished from run time. Hash, stream output and formatting forward to the
built-in type and are modelled only where a property says so.

**Tv.** The alternatives of a variant are untyped values with an index;
construction and assignment of an alternative are outcomes chosen per operation
(`Ctor`, `Asg`: succeed with a value or throw). The storage of `optional<T &>`
is not modelled.

**Containers.** A container is its header plus a block of slots; a slot is raw
or holds a live value. Constructing in a live slot, destroying or reading a raw
slot, and releasing a block with live slots are undefined behaviour, so that a
history without undefined behaviour never leaks an element of a released block.
Whether an allocation fails is an oracle (`al`), whether copying an element
throws is part of the source (`Item.throws`). Relocation and move construction
of elements do not throw; `memcpy` branches for trivially relocatable elements
are assumed to have the effect of the element-wise loop. Copy elision in
`relocate` is assumed. The source of an operation is a list of values that does
not change during the operation, except in `Alias` (references to elements of
the container itself), `push_back` (same), and `MoveSource`/`Concatenate`
(rvalue containers with storage of their own). The pointer of an empty vector is
null with zero slots (`void`). Self move assignment is excluded. static_vector of
trivial elements assumes all special members trivial. sbo_vector: little endian,
bit-fields allocated from the low bit, `std::swap` is three moves, an exception
in a delegating constructor runs the destructor. dynamic_array: `allocate(0)`
returns a block.

**Lists.** Addresses of nodes are never reused. Source values are read before
the operation starts; a list as its own source is not modelled. A failed
assignment leaves the element in a state chosen by the operation (`left`). The
counter of a sized list is an integer with its residue modulo 2^64.

**Algo.** Moves and assignments of elements do not throw. An iterator is an
address. The pivot of `partition` is read in every iteration as in the code. In
the double-buffered merge sort moved-from slots are unreadable. American flag
sort carries a ghost flag that records an early return. `unique` uses a model
of moves in which an element type chooses what a self-move does. Radix keys: the
order of the key leaves is assumed to agree with `<` of the elements (C43 proves
this for the built-in leaves).

**Views.** A range is given by its operations (`Rng`, `Range`, `Fwd`, `RA`);
functions and predicates applied to elements are pure and total. Zipped and
concatenated ranges have one element type.

**Maps.** The underlying container is a list with a capacity; its operations
are those of C25/C28. Element operations do not throw. The order of keys is a
strict weak order and agrees with `==` and with the radix order of the keys
(`Cfg.Ok`).


## Properties

For each property: the modules, what is modelled and how it is proved, and - where the
claim is not proved in full - what is missing or violated.

**C01 Bounded addition is exact and never overflows** (proved; Bounded.ArithProps)  
Model and proof: `safer_add` with modulo-2^W arithmetic and its static assertions, run-time modular computation and cast to the storage type; the modular value is congruent and in range, hence equal.

**C02 Bounded multiplication is exact and never overflows** (partial; Bounded.ArithProps, Bounded.Exactly)  
Model and proof: `safer_multiply` including its quotient test, as C01. `Bounded/Exactly.lean`: necessary and sufficient conditions.  
Status: Multiplication accepts ranges whose exact lower bound lies in (-2^W, -2^(W-1)) and wraps them (C02_mul_exact_violated); exact otherwise. The types for which every product is exact are characterised completely (C02_mul_types).

**C03 Negation and subtraction are exact** (proved; Bounded.ArithProps)  
Model and proof: `safer_negation` and subtraction as sum with the negation, as C01.

**C04 Bounded division truncates toward zero inside the declared range** (proved; Bounded.ArithProps)  
Model and proof: Range by sign cases, common type, C++ `/`; monotonicity of truncated division, overflow excluded by the common type.

**C05 Bounded modulus yields the C++ remainder inside the declared range** (partial; Bounded.Exactly, Bounded.ModProps)  
Model and proof: `sign_free_value` loop as recursion, C++ `%`; loop invariant. `Bounded/Exactly.lean`: necessary and sufficient conditions.  
Status: INT_MIN % -1 in the type of the computation is undefined (C05_mod_exact_violated); exact for every other pair with non-zero divisor (C05_mod_exact_partial). The operands that are undefined are characterised completely (C05_mod_values).

**C06 The modulus result range is as tight as possible** (proved; Bounded.ModProps)  
Model and proof: The range of C05 is attained: witnesses for both ends.

**C07 Shifts compute multiplication / division by powers of two inside the declared range** (partial; Bounded.Exactly, Bounded.Shift)  
Model and proof: Range formulas and C++ shifts; monotonicity for non-negative operands. `Bounded/Exactly.lean`: necessary and sufficient conditions.  
Status: Shifts compile for argument types for which the built-in shift overflows or the shift count is out of range (C07_shl_violated, C07_shr_violated); exact otherwise. The types for which every shift is exact are characterised completely, for a widest type of 64 to 128 bits (C07_shl_types, C07_shr_types).

**C08 Bitwise and stays inside its declared range** (partial; Bounded.Exactly, Bounded.Shift)  
Model and proof: Range formula and C++ `&`; bitwise bounds. `Bounded/Exactly.lean`: necessary and sufficient conditions.  
Status: The range computed for operator& is wrong for mixed signs (C08_and_violated); exact with the partial theorem's hypotheses. The types and values for which it is exact are characterised completely (C08_and_types, C08_and_values).

**C09 Comparisons agree with mathematical order** (proved; Bounded.IntegerProps)  
Model and proof: `safe_compare` with the type selection; case analysis over signedness.

**C10 The chosen storage type can hold every value of the range** (proved; Bounded.IntegerProps)  
Model and proof: The selection of the storage type from the two bounds; case analysis over the built-in types.

**C11 Whole expressions evaluate exactly** (partial; Bounded.AssignProps)  
Model and proof: Deep embedding of expressions with the type computation; induction over expressions.  
Status: Expressions containing a product whose exact range is accepted but not representable wrap (C11_mul_violated); exact for all expressions in which no such product occurs.

**C12 Narrowing assignment and compound assignment store the exact value or are undefined** (partial; Bounded.AssignProps)  
Model and proof: Compound assignment, increment, decrement with the assertion of the target range; histories by induction.  
Status: x *= y inherits the wrap of multiplication (C12_mul_violated); every other history of assignments is exact.

**C13 check_in_range is exact** (partial; Bounded.CheckInRange)  
Model and proof: assume_in_range, check_in_range with built-in comparison; direct.  
Status: check_in_range with two built-in arguments of different signedness compares after the usual arithmetic conversions and accepts or rejects wrongly (C13_check_in_range_violated).

**C14 min, max, clamp and abs are exact and correctly typed** (partial; Bounded.MinMaxProps, Bounded.MinMaxRef)  
Model and proof: `extreme_value` fold over any number of arguments; induction over the arguments.  
Status: Proved for the value that is selected, its range and its place among equal arguments, and for clamp and abs. With three or more arguments of different types the result can refer to a temporary object that has ended, so that using it is undefined (C14_three_violated, C73).

**C15 to_integer accepts exactly the in-range decimal strings** (proved; Bounded.ToInteger)  
Model and proof: The parser loop over a string; induction over the digits.

**C16 Integer to string to integer round trips** (proved; Bounded.ToString)  
Model and proof: The digit loop of to_string; induction over the value; round trip with C15.

**C17 log and pow are exact and stay in the declared range** (proved; Bounded.LogPow)  
Model and proof: The log and pow loops with their result ranges; loop invariants.

**C18 numeric_limits digits and representation_bits are safe** (proved; Bounded.Digits)  
Model and proof: digits, digits10 and representation_bits as computed from the bounds; arithmetic on the loop.

**C19 Tombstone representations are a bijection disjoint from real values** (proved; Bounded.Tombstone)  
Model and proof: Spare representations outside the range; bijection with the tombstones.

**C20 Nested optional never confuses levels** (proved; Tv.OptionalNest)  
Model and proof: Nested optionals on spare representations; induction over the depth.

**C21 Optional behaves as a value-or-nothing container over any operation history** (partial; Tv.Optional)  
Model and proof: State machine of optional with lifetimes and exceptions; refinement over histories.  
Status: For element types with a spare representation, a constructor that throws inside an existing optional leaves no object in the storage (C21_nullable_throw_violated); every other history is exact, and all histories are exact for types stored in a variant.

**C22 Variant holds exactly one live alternative over any history** (proved; Tv.Variant)  
Model and proof: State machine of variant; invariant over histories.

**C23 visit calls exactly the overload for the active alternatives** (proved; Tv.Visit)  
Model and proof: The recursion of visit; induction over the alternatives and the number of variants.

**C24 Tuple comparison is lexicographic and tuple_cat concatenates** (proved; Tv.Tuple)  
Model and proof: Tuple storage, comparison, cat, transform; induction over the members.

**C25 Vector operations refine a mathematical sequence** (partial; Containers.VectorProps)  
Model and proof: bounded_vector as header and slots, all operations from their generic algorithms; step refinement to lists, histories by induction.  
Status: Every history of any number of vectors refines sequences (C25_vector_history_partial), at() is exact (C25_at). Violated by insert of an empty range before the end with room (C25_insert_nothing_violated) and by operations on moved-from vectors (C25_moved_from_violated).

**C26 Vector growth works right up to the maximum size** (partial; Containers.VectorProps)  
Model and proof: Capacity computation of exponential growth; arithmetic on top of C25.  
Status: Growth succeeds when the maximum is at least twice the capacity (C26_growth_partial); near the maximum push_back is undefined (C26_push_back_violated) and append/insert throw (C26_append_violated).

**C27 Vector element lifetimes are exact** (partial; Containers.VectorProps)  
Model and proof: Lifetimes of C25's model: undefined behaviour covers double construction/destruction, release of live slots; the heap holds exactly the blocks of existing vectors.  
Status: Exact lifetimes through every history including exceptions (C27_lifetimes_partial), except an assignment whose allocation fails (C27_failed_allocation_violated) and construction from an unsized range whose later element throws (C27_unsized_constructor_violated).

**C28 static_vector never exceeds its fixed capacity** (partial; Containers.StaticVector)  
Model and proof: static_vector instance of the generic model; histories.  
Status: Every history of any number of static_vectors refines bounded sequences (C28_static_vector_history_partial, C28_over_capacity); append and resize past the capacity write beyond the storage when the source alone would fit (C28_append_violated).

**C29 Small-buffer vector size encoding round trips** (proved; Containers.SboSize, Containers.SboWorld)  
Model and proof: Byte splitting of the size with bit-fields; arithmetic.  
Status: Round trip for every size type and size (C29_round_trip), independence of the bit-fields of the last byte (C29_last_byte), and set_size on any vector in use (C29_set_size).

**C30 Small-buffer vector transitions preserve contents** (partial; Containers.SboWorld)  
Model and proof: Small and large state of sbo_vector with its union; histories.  
Status: Every history of any number of sbo_vectors refines sequences and owns a heap block exactly when large (C30_sbo_vector_history_partial), except an assignment of trivially copyable elements to a large vector whose allocation fails (C30_failed_allocation_violated).

**C31 Doubly linked list operations preserve the ring and the sequence** (partial; Lists.BidirProps, Lists.Heap)  
Model and proof: Heap of nodes with next/prev pointers; a well-formedness predicate is preserved; refinement to lists with identities.  
Status: Every history of any number of lists refines sequences with stable element identities, in both directions of traversal (C31_history_partial). Excluded: a splice whose position is the end of the moved range, which trips an assertion although nothing needs to move (C31_splice_in_place_violated), and construction from a range that throws midway, which leaks the nodes made so far (C31_failed_copy_violated).

**C32 Forward list operations preserve the sequence** (partial; Lists.ForwardProps)  
Model and proof: The same with next pointers only.  
Status: Every history of any number of forward lists refines sequences (C32_history_partial), except construction from a range that throws midway, which leaks the nodes made so far (C32_failed_copy_violated).

**C33 flat_map behaves as a map for any history** (partial; Maps.FlatMapProps, Maps.Upsert)  
Model and proof: flat_map on a list with the real search, merge and sort code; refinement to a map.  
Status: Single insertion, erasing, find, lookup, construction and upsert are proved for all contents (upsert when keys already present come first in the source), range insertion and construction for up to 128 elements, one-byte keys, safe radix chains and numbers whose groups of common leading bytes have the right sizes, and whole histories of these. Violations are proved: upsert misses existing keys, range insertion loses values of self-moved elements, needs room for keys that are already there, and large maps can be unsorted (inherited from the radix sort).

**C34 flat_multimap keeps every element in key order** (partial; Maps.MultiMap)  
Model and proof: flat_multimap likewise; refinement to the stable sort.  
Status: Every history of single and range insertions and erasures is proved, with std::inplace_merge as an assumption; after insertions only, the contents are the stable sort of the inserted elements. A multimap made from any range has its elements (C34_construct_elements). Partial because ranges of more than 128 elements need a key or contents for which the radix sort is proved (C42): C34_many_violated is a multimap of 129 elements that is not sorted and does not find one of them.

**C35 linear_map behaves as a map for any history** (partial; Maps.LinearMap)  
Model and proof: linear_map likewise, keys compared with `==` only.  
Status: Unique keys, find, lookup, single insertion, erasing and whole histories are proved for all contents. A range with two elements of the same new key may give it the later value (C35_first_wins_violated); for ranges with unique keys the full claim is proved.

**C36 Binary search returns the exact boundary** (proved; Algo.Search)  
Model and proof: count/step loop of partition_point and the bounds; loop invariant.

**C37 partition and iterator_partition permute and separate** (proved; Algo.Partition)  
Model and proof: Two-pointer loops of partition; invariant on memory.

**C38 The comparison sorts sort every input** (proved; Algo.Merge, Algo.Sort)  
Model and proof: new_sort/introsort: pivot choice, partition, recursion with depth limit, heap sort fallback (external assumption), insertion sort; sortedness and permutation on memory.

**C39 Fixed-size sorts sort every input** (partial; Algo.SortExactlyProps)  
Model and proof: Decision trees of the fixed-size sorts; a checker on decision trees is proved correct and evaluated in the kernel on the finitely many trees.  
Status: All decision trees are checked by a verified procedure: in place versions sort stably at any placement in memory (C39_in_place, C39_in_place_anywhere); the relocating versions and sort_exactly_n sort, stably except for four cheaply sortable elements (C39_relocate_partial, C39_sort_exactly_partial), where the documented stability fails (C39_branchless_stable_violated).

**C40 Merges are stable and complete** (partial; Algo.Merge)  
Model and proof: Merging with relocation into overlapping storage; invariant on memory.  
Status: The code loses an element of the second range whenever that range holds the smallest element (C40_merge_relocate_complete_violated, C40_chunked_insertion_sort_violated). Proved for the remaining inputs: the overlapping merge is complete, stable and never overwrites an unread element (C40_merge_relocate_partial); likewise fixed_size_merge_sort and chunked_insertion_sort (the _partial theorems name the exact hypothesis).

**C41 double_buffered_ska_sort is a stable sort by key** (proved; Algo.DoubleBuffered)  
Model and proof: Double-buffered radix sort (counting passes between two buffers, recursion over sub keys); stability and sortedness by induction over the key description.

**C42 ska_sort sorts every input by key** (partial; Algo.SkaEarly, Algo.SkaOnce, Algo.SkaProps)  
Model and proof: ska_sort: counting, american flag and ska byte sort, recursion over sub keys; induction over the key description.  
Status: ska_sort always permutes (C42_permutation) and sorts ranges of at most 128 elements (C42_ska_sort_small) and of any size for keys of booleans and at most one final byte (C42_ska_sort_bytes). In general it sorts unless american_flag_sort returned early, for keys without ranges of tuples (C42_ska_sort_partial). For one number of any number of bytes the input decides: it sorts if no group of 129 to 1023 elements with common leading bytes has two different next bytes, unless that byte is the last (C42_ska_sort_groups_partial); every range of 129 to 1023 elements with two different leading bytes, the largest of which occurs twice, is only ordered by its leading bytes (C42_american_flag_ignores_rest, C42_american_flag_always_violated). If the largest byte occurs once, the last two elements decide; so for numbers of two bytes every range is known to be sorted (C42_ska_sort_two_bytes_partial) or to be ordered by its first bytes only (C42_american_flag_blocks_left). Not characterised: with three or more bytes, inner groups in which the largest byte occurs exactly once. Concrete failures: C42_american_flag_violated, C42_range_of_tuples_violated.

**C43 Radix sort keys preserve order** (partial; Algo.RadixKey)  
Model and proof: Key functions on bit vectors; arithmetic.  
Status: Keys of booleans, unsigned and signed integers and unsigned character types preserve order and values; floating point keys preserve order away from NaN (C43_float_partial) but -0.0 and +0.0 get different keys (C43_zero_violated); plain char where it is signed is converted without the offset, so the order is not preserved (C43_char_violated, C43_char_partial).

**C44 unique keeps exactly one element per group and merges keep sets** (partial; Algo.UniqueProps)  
Model and proof: unique family with explicit moves; invariant on memory.  
Status: unique, unique_copy, unique_copy_less, unique_merge_copy are proved in full. unique_inplace_merge assigns every already-in-place element of the tail to itself by move; C44_unique_inplace_merge_partial covers element types whose self-move keeps the value, C44_self_move_violated gives a type and ranges where the result is lost.

**C45 Set intersection visits exactly the common keys** (proved; Algo.SetIntersection)  
Model and proof: Set intersection loop; induction over both ranges.

**C46 erase and erase_if remove exactly the right elements** (partial; Containers.VectorProps, Lists.BidirProps)  
Model and proof: erase/erase_if loops on vectors (slots) and lists (nodes).  
Status: The remaining elements are exact for vectors and for linked lists (C46_list_erase_if); the number returned by erase_if is wrong for vectors (C46_erase_if_count_violated).

**C47 Range comparison functions implement lexicographic, short-lex and equality** (proved; Views.Compare)  
Model and proof: Comparison of ranges and containers; induction.

**C48 split and join are inverse** (partial; Views.Join, Views.Split)  
Model and proof: split/join iterators over abstract forward ranges; induction over the range.  
Status: split (single element and range delimiters), split keeping delimiters and join_with over forward ranges given by their operations. Violated: with kept delimiters two different positions compare equal; the order of split iterators puts a trailing empty piece after the end. std::search is an external assumption (first occurrence).

**C49 concatenate and concatenate_view produce the concatenation** (partial; Algo.ConcatenateForeign, Containers.Concatenate, Views.ConcatView)  
Model and proof: concatenate_view iterators (position in one of n ranges) and the container-building concatenate on the memory model.  
Status: concatenate_view of any number of ranges of one type, forward and random access. The container-building concatenate is proved for every number of arguments, with reused storage, when no element operation throws; with an exception and reused storage it is violated (the donor container destroys elements that were already relocated). For results of other libraries (std::vector, std::string: C49_concatenate_other_library, C49_legacy_append) the member functions of the standard containers are assumed.

**C50 Lazy views agree with their list definitions** (partial; Views.Adapt, Views.Adjacent, Views.IntegerRange, Views.Zip)  
Model and proof: transform, filter, reversed, zip, adjacent, integer_range, take, ... as ranges given by operations; each adaptor preserves the laws of ranges.  
Status: Views over ranges given by their operations; element functions and predicates are pure and total. zip of ranges of one element type; the least size of three or more ranges is taken as a number, although it can refer to an object that has ended (C73). Violated: the difference of the sentinel and an iterator of adjacent leaves its type for ranges of the greatest size; iterators of integer ranges downwards are ordered backwards.

**C51 Uninitialized copies give the strong lifetime guarantee** (proved; Containers.Mem)  
Model and proof: Slot memory with throwing copies; induction over length and exception point.

**C52 sum and product accumulate exactly** (partial; Bounded.Accumulate)  
Model and proof: Accumulation with the deduced result type; induction over the length.  
Status: The deduced result type of sum wraps for wide negative element ranges (C52_sum_violated); exact with a caller-supplied type, for products, and otherwise.

**C53 Searching algorithms return the first match** (proved; Algo.Search, Views.Adapt)  
Model and proof: Search loops on lists; induction.

**C54 Reverse and batched visit every element once in the right order** (proved; Algo.Reverse, Views.Batched)  
Model and proof: reverse and batched loops; invariant.

**C55 round_up_divide rounds the quotient up** (proved; Bounded.MinMaxProps)  
Model and proof: round_up_divide with its range; arithmetic.

**C56 Fixed-size sorts make no more comparisons than documented** (proved; Algo.SortExactlyProps)  
Model and proof: Decision trees of C39 with a comparison counter, evaluated by a checker that is proved correct.

**C57 Taking the elements of an rvalue container** (partial; Containers.MoveSource)  
Model and proof: Relocating transfer out of a container on the memory model.  
Status: Append, append into capacity, insert and construction from an rvalue container (including dynamic arrays, C59_from_rvalue_partial) are proved when no element operation throws; whatever throws, the target is as it was or as specified (C57_target, C57_append_into_capacity_target, C57_construct_target). Violated: an exception after the first element was taken makes the source destroy it again; a static_vector built from an rvalue static_vector whose size always fits is empty and leaks.

**C58 size() of a list is the number of its elements** (partial; Lists.SizedProps)  
Model and proof: C31's heap with the separate counter; refinement over histories.  
Status: Every history is proved for the lists that were not moved from while non-empty and whose copy assignment did not throw half-way; for programs without moves and without throwing copy assignments it holds for every list. Violated: a moved-from list keeps its old size() (resize then is undefined behaviour, two empty lists compare unequal), and a copy assignment that throws leaves the old size().

**C59 Dynamic arrays own their elements through every history** (partial; Containers.DynamicArray, Containers.DynamicArrayMove)  
Model and proof: dynamic_array as pointer, size and block; refinement over histories.  
Status: Every history is proved safe and leak-free, with contents and size() as specified for every array that was not moved from while it had elements; construction from and assignment of rvalue containers when no element operation throws. Violated: after its elements were moved away, size(), iteration and copying of an array fail an assertion (the size is kept while the pointer is reset).

**C60 Inserting elements of the container itself** (partial; Containers.Alias)  
Model and proof: The algorithms of C25 with a source that is read from the container when an element is constructed; proved equal to the algorithms with values read beforehand.  
Status: append and resize are proved for all references; insert for references before the position or with a reallocation; the std-style insert functions always. Violated: containers::insert in place with a reference to an element at or after the position reads an element that was moved away or inserts the neighbour (proved for every container and position). The repository documents this restriction for lazy_insert and emplace and has a TODO about it for insert of a value.

**C61 Single-pass ranges obtain every element exactly once** (partial; Views.Generate)  
Model and proof: Iterators as operations on a state that records everything observable about the calls; the loop is proved equal to a direct recursion that calls the function, by induction over the number of steps.  
Status: generate, generate_n, generate_until, transform_non_idempotent, indexed_generate_n and repeat_n are proved in full, remove_none for ranges whose end does not depend on obtaining an element. Violated: filter obtains every kept element twice and shows the second one; remove_none over generate_until can lose the last element; iterators of generate_n that are not at the end compare greater than the end. Comparing with the end is assumed to have no effect.

**C62 Returned iterators and references refer to the right element** (partial; Containers.Returned, Lists.Returned)  
Model and proof: `Containers/Returned.lean`, `Lists/Returned.lean`: the functions of C25/C26/C31/C32 with the iterator they return, an address (storage and slot) or a node. Contiguous containers: the operation is the one already refined; the address is shown to be in the storage of the result because operations in place keep the storage (`put_law`, `size_law`). Lists: a position refers to a suffix of the sequence of nodes; distinct nodes make that suffix unique, so the returned position cannot be the first new element.  
Status: Proved for insert, erase and push_back of vector, static_vector, sbo_vector (any lawful contiguous container), with and without reallocation, and for erase, push_back, push_front of bidirectional_linked_list and lazy_insert_after of forward_linked_list. Violated by every insert or emplace of at least one element into bidirectional_linked_list (and so the list in the style of the standard library): the returned iterator is the position that was passed, which is after the new elements (C62_list_insert_violated).

**C63 Standard-style containers: reverse iteration and rearranging members** (partial; Containers.StdStyle)  
Model and proof: `Containers/StdStyle.lean`: the loop over a `std::reverse_iterator` on the slots of a contiguous container and on the nodes of a list. Induction over the loop shows that it reverses the sequence from `end()` to `begin()`; with the bases that the code uses the first read is outside. The members of `list` without a body are the identity.  
Status: Reverse iteration is right only for empty containers: rbegin() is made from begin() and rend() from end(), so for every non-empty vector, inplace_vector and list the first dereference is undefined (C63_vector_reverse_violated, C63_list_reverse_violated). list::reverse, sort, merge and unique do nothing (they are marked TODO in the repository; C63_list_algorithms_violated).

**C64 inplace_vector reports a full container without touching it** (proved; Containers.StdStyle)  
Model and proof: `Containers/StdStyle.lean` on the model of `static_vector` (C28) with the returned addresses of C62; case split on the room left.  
Status: try_push_back, unchecked_push_back and reserve on the model of static_vector.

**C65 Stream insertion and extraction of bounded integers** (partial; Bounded.Stream)  
Model and proof: `Bounded/Stream.lean`: the standard streams as functions on the remaining characters and the state bits (assumption), the operators on top of them with `check_in_range` of C13. Case analysis of the field by its sign, induction over the digits for its value, induction over the sequence for the round trip.  
Status: Writing, reading of numbers, the round trip of any sequence of values, and inputs that are not numbers are proved. An expression that reads several variables reads them in order, and one that throws ends it with the earlier ones read (C65_read_several, C65_read_several_throws). Reading at the end of the input is proved to read an uninitialised variable for every type (C65_read_end_violated), so every `while (in >> x)` loop ends in undefined behaviour (up to C++23) or changes the variable to an arbitrary value. A negative number read into a type with an unsigned underlying type of 32 or more bits is accepted with a wrong value (C65_read_minus_violated). The standard streams are assumed as written in the model.

**C66 Reading words into a string** (proved; Containers.StringStream)  
Model and proof: `Containers/StringStream.lean`: the loop over the stream buffer; induction over the remaining characters, and over the words for the round trip.  
Status: The loop over the stream buffer with memory exhaustion at any point. The difference to `std::string`, that reading the last word does not set eofbit, is recorded as a theorem (C66_eof). The standard streams are assumed as written in the model; the string is its sequence of characters, which C25 and C27 justify.

**C67 Integer literals with the suffix _bi** (partial; Bounded.Literal)  
Model and proof: `Bounded/Literal.lean`: the loop in arithmetic modulo 2^W against the grammar of integer literals; induction over the characters.  
Status: Proved for decimal literals that are representable in the widest unsigned type, with any digit separators; hexadecimal and binary literals are proved to be rejected. Octal literals are read as decimal (C67_literal_octal_violated) and larger decimal literals are silently reduced modulo 2^W (C67_literal_overflow_violated).

**C68 Operators that mix bounded and built-in integers** (partial; Bounded.Mixed)  
Model and proof: `Bounded/Mixed.lean`: the built-in operand becomes a bounded integer of the range of its type, the bounded operator of C01-C08 runs, and the value is read in the underlying type of the result (C10). Corollaries of those theorems, and a direct proof for the built-in negation and the conversion on assignment.  
Status: Addition, division, subtraction from a built-in integer and compound assignment to a bounded variable are proved; multiplication, modulus, bitwise and and shifts under the conditions of C02, C05, C07 and C08. Subtraction of a built-in integer is proved for types narrower than int and for every value with a representable negation; for an unsigned type of 32 or more bits the result is proved to be too large by 2^bits for every value but zero (C68_sub_unsigned_violated), because the generic operator negates the built-in operand. Division by an unsigned built-in integer and shifts by any built-in count are proved never to compile. Compound assignment to a built-in variable silently wraps (C68_compound_builtin_violated). Byte shifts by 32 or more are undefined. The generic minus and the compound operators are those of the external `operators` module, assumed to be `lhs + -rhs` and `x = x op y`.

**C69 Scope guards run exactly when they should** (partial; Bounded.Scope)  
Model and proof: `Bounded/Scope.lean`: a language of nested scopes whose guard functions are again programs, run with flags and counts of uncaught exceptions as in the code, against a semantics of duties without either; structural induction over programs, quantified over the count. Histories of objects: an invariant relating active guards to the responsible guard, by induction over the history.  
Status: Proved for every program with nested scopes (C69_programs), and for objects whose lifetimes are not nested: each function runs at most once, exactly if the guard responsible for it is destroyed (C69_exactly_once). For a guard for failure whose lifetime is not nested in the propagation of an exception the property is false in both directions (C69_fail_violated), because the numbers of uncaught exceptions are compared for equality.

**C70 A function wrapper without allocation behaves like the callable it holds** (partial; Containers.InplaceFunction)  
Model and proof: `Containers/InplaceFunction.lean`: objects as bytes plus an indirection (null, function pointer, default-constructing thunk, thunk through the storage); simulation by variables holding callables by value, induction over the history.  
Status: The value semantics are proved for every history (C70_value_semantics), both representations. The distinction from the empty state is proved for everything but null pointers to functions; a wrapper of capacity 0 made from one is the empty state (C70_null_violated). Pointers to functions pass the constraint for capacities from 1 to 7 but do not compile (C70_small_capacity_rejected). A trivially copyable callable is its bytes together with a function on them.

**C71 Maps used by key behave as functions from keys to values** (partial; Maps.Keyed)  
Model and proof: `Maps/Keyed.lean`: the functions on top of the models of the maps, with everything they return; simulation by functions from keys to values and a count, induction over the history.  
Status: Proved for flat_map, linear_map and flat_multimap over every history, with their observational equivalence, for rvalues, and for the bound on the size. Multimaps of the standard library, which keyed_insert supports, have a member function find, and keyed_erase removes only one of their elements (C71_std_multimap_violated).

**C72 Strings keep their text through conversions, and compare and hash by it** (partial; Containers.Strings)  
Model and proof: `Containers/Strings.lean`: strings as addresses and sizes over a memory of bytes; conversions, literals, overload resolution of comparisons; induction over chains of conversions, refinement to dictionary order through C47.  
Status: Proved for all conversions, literals, equality and hashes. The order is by the values of the bytes for comparisons made by the standard library and by the values of char for those made by this library. These agree where char is unsigned or all characters are below 128 (C72_order_same_partial). Where char is signed the order depends on the types: two equal strings are on different sides of a third one (C72_order_violated).

**C73 The result of min and max refers to an object that exists** (partial; Bounded.MinMaxRef)  
Model and proof: `Bounded/MinMaxRef.lean`: arguments with value categories, constness and places; the conditional operator, both versions of `extreme_value` and the recursion of `extreme_function`; induction over the arguments, refinement to C14 for the value.  
Status: Proved for all types other than bounded integers, for one or two bounded integers, and for any number of bounded integers of the same type and value category. An lvalue and an rvalue of the same type give a copy, or a constant reference where the compiler lets it bind (C73_mixed). Violated for three or more bounded integers of different types: a temporary object of the variadic function is returned by reference (C73_lvalues_violated), which also happens for the sizes of three ranges in zip (C73_sizes_violated). Two rvalues of the same type of bounded integers give a reference, unlike other types (C73_rvalues_violated).

**C74 Algorithms of the standard library see wrapped iterators as positions** (partial; Iter.Legacy)  
Model and proof: `Iter/Legacy.lean`: the operations of `legacy_iterator` over `contiguous_iterator`; algorithms are interaction trees over iterator variables; simulation of positions by induction over the program.  
Status: Proved for all programs over ranges with fewer than 2 ^ 63 elements. Violated for every larger range: the distance is cut to std::ptrdiff_t without a check (C74_difference_violated); violated for forward iterators that can be default constructed: wrapping takes the default constructor away (C74_default_violated). The wrapped iterators are modelled as contiguous_iterator; conversions from iterator to const iterator are not modelled.

**C75 Addresses of elements stay valid as long as nothing makes them invalid** (proved; Containers.Stable, Lists.Stable)  
Model and proof: `Containers/Stable.lean`: invariant over histories of the generic container model with addresses as (block, index) pairs; the rule which operations keep the block (`PtrRule`) is part of the refinement proof of every operation. `Lists/Stable.lean`: the nodes of the abstract lists keep identity and value; histories by refinement.  
Status: Contiguous containers: one operation (C75_addresses), histories (C75_history), moves and swaps of vectors (C75_move_swap). Lists: histories (C75_list_history, C75_forward_history). The histories exclude the calls that are undefined by C25-C28, C31, C32.

**C76 Growing a container costs constant time per element on average** (proved; Containers.Growth)  
Model and proof: `Containers/Growth.lean`: costs added up over histories of the generic container model from outside; amortisation by an invariant between capacity, moved elements and added elements.  
Status: The cost is observed from outside (the storage is another one afterwards). Histories exclude the calls that are undefined by C25-C28; ranges of unknown size are appended by single push_backs and are covered as such; assignment of trivially copyable elements discards the old elements instead of moving them and is not counted.

**C77 How often and with what the searches call the function they are given** (proved; Algo.CallsProps)  
Model and proof: `Algo/Calls.lean`: an algorithm is the tree of the calls it makes, with the memory at each call; running the tree with a function gives the models of the other files (`..._run`). `Algo/CallsProps.lean`: claims about all runs of the tree with stateful, throwing function objects, by induction over ranges; optimality by counting the leaves of decision trees.  
Status: Function objects are decision procedures with state; exceptions end the run. Copies of a function object are taken to share their state.

**C78 Partitioning and sorting keep every element when the comparison throws** (partial; Algo.ThrowsProps)  
Model and proof: `Algo/Throws.lean`: the sorting and partitioning routines as trees of calls with the memory at each call; `..._run` shows that with a function they are the models of `Algo/Sort.lean`, `Algo/Partition.lean` and `Algo/Merge.lean`. `Algo/ThrowsProps.lean`: by induction over the loops and the recursion, at every call the memory is a rearrangement within the range (`Shuffled`); witnesses for what the merges lose.  
Status: The merges lose elements if the comparison throws, and the branchless routine for three elements and iterator_partition have undefined behaviour for function objects that contradict themselves: C78_fixed_size_merge_sort_violated, C78_merge_relocate_violated, C78_chunked_insertion_sort_violated, C78_sort_exactly_inconsistent_violated, C78_iterator_partition_inconsistent_violated. For new_sort the standard heap functions are assumed to leave all elements in the range when the comparison throws; askingSort shows the assumption can be met. Moves and swaps of elements are taken not to throw.

**C79 Sorting needs at most n log n comparisons** (proved; Algo.ThrowsProps)  
Model and proof: `Algo/ThrowsProps.lean`: the same induction counts the calls; the recursion of `introsort` splits the range, so each of the `2 log2 n` levels costs at most `3 n` comparisons.  
Status: The comparisons of the standard heap functions are a parameter of the bound. Comparisons of assertions (is_sorted at the end) are counted.

**C80 Removing duplicates and erasing lose no kept element when the comparison throws** (partial; Algo.UniqueThrowsProps)  
Model and proof: `Algo/UniqueThrows.lean`: the algorithms as trees of calls with the memory at each call; `..._run` shows that with a function they are the model of `Algo/Unique.lean`. `Algo/UniqueThrowsProps.lean`: by induction over the loops, at every call only objects of the ranges differ (`Within`), and every element is still represented.  
Status: unique_inplace_merge loses elements of the first range if the comparison throws: C80_unique_inplace_merge_violated. Assignments of elements are taken not to throw.

**C81 Inserting into a map when something throws** (partial; Maps.Allocations, Maps.Throws)  
Model and proof: `Maps/Throws.lean`: the operations as trees of calls (comparisons, allocation, construction, copies) with the contents of the map at each call; `..._run` shows that with functions they are the models of `Maps/FlatMap.lean` and `Maps/LinearMap.lean`. At every call of a single insertion the contents are the original ones; witnesses for ranges and upsert. `Maps/Allocations.lean` counts allocations and new elements.  
Status: An exception while a range is inserted leaves a flat_map unsorted or without an element, and a linear_map with a key twice: C81_flat_insert_range_violated, C81_flat_insert_range_loses_violated, C81_flat_insert_range_alloc_violated, C81_flat_insert_unsized_violated, C81_flat_upsert_violated, C81_linear_insert_range_violated. Of the sort that is called before the merge (ska_sort of one element) the witnesses assume that it does nothing. If nothing throws, the operations do what C33 and C35 say (C81_returns, C81_returns_ranges), and they allocate no more than the growth of the container requires (C81_allocations). Moves of elements are taken not to throw.

**C82 Spans and views of bytes refer to exactly the given elements** (partial; Containers.Bytes)  
Model and proof: `Containers/Bytes.lean`: a memory of bytes, arrays in it, pointers as addresses, and the functions of spans; arithmetic and accesses that leave the array are undefined. The bytes of an element are a separate definition. The size of `as_bytes` uses the model of multiplication and conversion of C02 and C10.  
Status: The index of a span is not checked: every index from the size up to the size of the greatest array is accepted, and reads an element outside of the span or is undefined (C82_span_index_violated). Alignment and the aliasing rules are not modelled.

**C83 Making an array takes every element exactly once** (proved; Containers.ToArray)  
Model and proof: `Containers/ToArray.lean`: the functions with a record of what is done with the iterator and the value; induction over the size.  
Status: Whether the elements of an rvalue are moved or copied is not modelled. Initialisers in braces are evaluated from left to right, as the language says.

**C84 Iterators of views are usable exactly as long as what they refer to exists** (proved; Views.Lifetime)  
Model and proof: `Views/Lifetime.lean`: a world of containers and views with identities and lifetimes; views own what was an rvalue and refer to what was an lvalue; iterators have copies of or references to functions. The elements of a view are defined with `map` and `filter`; induction over the tower of views and over the history.  
Status: Functions are pure and total and do not change the type of the elements; containers do not change their size (C76 says when addresses stay valid). transform of a transform and filter are modelled, the other views keep no functions or are like one of these. A view that was moved from is taken not to exist any more. `reversed` of an rvalue reversed view of a const container copies the container, and of a non-const lvalue does not compile; this is not modelled.

**C85 Appending part of a list to the list itself adds exactly that part** (partial; Lists.SelfAppend)  
Model and proof: `Lists/SelfAppend.lean`: the loops with the source as nodes in the same memory, round by round; induction over the range, and over the number of rounds for the ones that never end. On top of the invariants of C31 and C32.  
Status: Proved if the range belongs to another list, or ends before the end of the list (append), or if the position is neither in the range nor its last element (append_after). Otherwise the call never ends, and the list grows for ever: C85_list_append_itself_violated (append(list, list)) and C85_forward_append_after_itself_violated. No exceptions; C31 and C32 have those, with sources that are not in the list.

**C86 Removing the elements equal to an element of the container removes exactly those** (partial; Containers.EraseAlias, Lists.RemoveAlias)  
Model and proof: `Lists/RemoveAlias.lean` and `Containers/EraseAlias.lean`: the loops of C31 and C46 with a predicate that reads the memory; induction over the elements still to visit.  
Status: Lists: proved if the element is the last one, is in another list, or is not equal to itself (C86_list_remove_partial); undefined in all other cases (C86_list_remove_violated). Arrays: proved if not more elements stay than are before the element (C86_erase_partial); otherwise the element is overwritten by some y, and the exact result is proved (C86_erase_overwritten, C86_erase_cases), which is wrong whenever the element or y occurs again behind y (C86_erase_violated). The function erase(inplace_vector &, value) is not exported by its module; it calls erase_if with the same arguments.

**C87 A key function that throws does not make a radix sort lose elements** (partial; Algo.RadixSwaps, Algo.RadixThrowsProps)  
Model and proof: `Algo/RadixThrows.lean`: the sorts of C41 and C42 again, with the list of the states of memory at the calls of the key function; their results are proved to be those of the models of C41 and C42. `Algo/RadixThrowsProps.lean`: every function keeps what swaps keep; for the buffered sort the invariant of the scatter loop, place by place. `Algo/RadixSwaps.lean`: `ska_sort` as a program of reads, calls of the key function, swaps and calls of std::sort (`RProg`), equal to the model of C42 if nothing throws (`skaSortR_plain`); since C42 holds where only the range exists, every run is confined to it (`exec_around`, by induction on the program).  
Status: ska_sort: proved for every call that throws, with other objects around the range and for key functions with a state (C87_ska_sort; C87_ska_sort_partial says it of the state at each call), relative to a std::sort that keeps the elements when a comparison throws (the standard does not promise it). double_buffered_ska_sort: false, since it moves elements to the buffer while it calls the key function (C87_double_buffered_violated); what holds is that each element is in a place of its own in the source or in the buffer (C87_double_buffered_partial), and that the calls up to the size of the range leave everything in place (C87_double_buffered_counting). Moves and swaps do not throw, and keys do not change between calls.

**C88 The declared ranges of results are as small as possible** (partial; Bounded.Tight)  
Model and proof: `Bounded/Tight.lean`: the bounds are computed from bounds of the operands, so each is the result for two of these; for division the case distinction of the source.  
Status: Proved for + - (both), /, abs, min, max, clamp, log and pow (C88_add, C88_sub, C88_neg, C88_div, C88_abs, C88_minmax, C88_clamp, C88_log, C88_pow), for *, << and >> for all types for which the operators are exact (C88_mul_partial, C88_shl_partial, C88_shr_partial; the exact conditions are those of C02_mul_types, C07_shl_types and C07_shr_types). For % see C06. False for & (C88_and_violated; a comment in the source says so) and for round_up_divide (C88_round_up_divide_violated).

**C89 Copying and relocating inside of one array** (proved; Algo.Overlap, Algo.OverlapThrows)  
Model and proof: `Algo/Overlap.lean`: induction on the number of elements over a memory of cells; the wrong directions give a pattern with the distance as period. `Algo/OverlapThrows.lean`: up to the first assignment that throws the copies are those that do not (`copyX_threw`, `copyBackwardX_threw`).  
Status: Ranges given as lvalues. The contents after a call with overlap in the wrong direction are proved too (C89_copy_inside, C89_copy_backward_inside), and relocation in the wrong direction is proved undefined (C89_relocate_inside, C89_relocate_backward_inside). Throwing assignments: C89_copy_throws, C89_copy_truncate_throws, C89_copy_backward_throws; relocation is noexcept in the library.

**C90 Giving a variant or an optional a part of its own value** (partial; Tv.OwnValue)  
Model and proof: `Tv/OwnValue.lean`: the argument is a place that is read when the code reads it; case analysis of the two branches of `emplace_impl` and of both storages.  
Status: Violated: if the construction is noexcept (most moves), a variant (and an optional without spare representation) destroys its value before it reads the argument (C90_variant_emplace_undefined, C90_variant_assign_violated); an optional with a spare representation always does, and insert(optional, *optional) of an integer makes it empty (C90_nullable_emplace_violated). Proved for arguments from elsewhere, for constructors that are not noexcept, and for every assignment of the alternative that is held already, where the assignment operator of the alternative is given.

**C91 Optional references** (proved; Tv.OptionalRef)  
Model and proof: `Tv/OptionalRef.lean`: stepwise refinement of pointers to names, lifted to histories.

**C92 Swaps of elements that throw** (partial; Algo.NewSortSwaps, Algo.RadixSwaps, Algo.SortSwaps, Algo.SwapProgs, Algo.SwapThrows, Maps.LinearSwaps)  
Model and proof: `Algo/SwapThrows.lean`: induction on the pairs; the call that throws leaves two arbitrary values. `Algo/SwapProgs.lean`: the partitions as programs of reads, calls and swaps (`SProg`), equal to those of C78 if no swap throws; a run with throwing swaps is the run without up to the failure (`exec_toA`), and does not depend on objects outside of the range (`exec_local`). `Maps/LinearSwaps.lean`: `remove_duplicates` as such a program, by induction on the elements that are left. `Algo/SortSwaps.lean`: a verified check of the decision trees (`treeWhole`) that all elements are in their places whenever a leaf swaps. `Algo/NewSortSwaps.lean`: every part of `new_sort` either has the result of the model without exceptions or ends in one of the described states (`Good`); `Good.next` and `Good.sub` compose parts and halves; induction on the depth. `Algo/RadixSwaps.lean`: see C87.  
Status: Violated by inplace_vector, whose swap is declared noexcept for all elements: the exception terminates the program (C92_inplace_swap_violated). Proved for reverse (random access and bidirectional), partition (also forward), iterator_partition, sorting two to five elements in place (C92_sort_exactly), static_vector and the insertion of a range into a linear_map (C92_linear_map_insert). iterator_partition needs a comparison that does not contradict itself (C78). std::swap_ranges is assumed to exchange the pairs in order. new_sort of ranges of any length (C92_new_sort) for a comparison that is a strict weak order where it does not throw; of std::make_heap and std::sort_heap it is assumed that they sort or, if they throw, leave the elements alive. ska_sort of ranges of any length with other objects around and a key function that may throw as well (C92_ska_sort); of std::sort it is assumed that it sorts or, if something throws in it, leaves the elements alive. Missing: what the heap functions and std::sort leave of the values.

**C93 Optionals of static_vectors and of variants** (proved; Tv.MemberTomb)  
Model and proof: `Tv/MemberTomb.lean`: lending the representations of a member preserves the contract of `tombstone`; with that the theorems of C20 apply.  
Status: For a widest built-in integer of more than 64 bits, as in C19. The storage of a vector is modelled as which object is at which position. With a capacity of zero, or a single alternative, there is no spare representation and the optional uses an index of its own; that case is included.

**C94 Counting elements and moving iterators one by one** (partial; Views.Count)  
Model and proof: `Views/Count.lean`: induction over the elements (or the steps), with the counters of `Bounded`; the limits are those of the types in the code.  
Status: Proved for all ranges whose difference type has more than one value, and conversely that the counter leaves its type exactly when the number does not fit. Violated for ranges that are empty by their type: count_if and count of an array<T, 0> do not compile, since the counter is an integer<0, 0> that cannot be incremented. Offsets and differences are bounded integers; those of built-in type (legacy iterators) are not modelled, nor offsets whose bounds come within a factor of two of the widest type's.

**C95 More elements than the maximum size are refused** (partial; Containers.TooMany)  
Model and proof: `Containers/TooMany.lean`: from the refinement theorem of every operation (`good_step`); the undefined cases by running the model.  
Status: append, insert, resize and reserve are proved for vector and sbo_vector. Violated: construction from a sized range and vector(count, value), assign of trivially copyable elements, and push_back to a full vector whose capacity cannot be doubled are undefined (each proved for all states and sources). assign of other elements throws after it has overwritten the existing elements (C95_assign). Which exception is thrown is not modelled.

**C96 Containers and algorithms may be used together in any order** (partial; Containers.Algorithms)  
Model and proof: `Containers/Algorithms.lean`: the storage of a container is the memory of the algorithms (`Rep.range`, `Rep.put`); one step of either kind keeps the representation, histories by induction with a nondeterministic specification; lists as ranges from the invariants of C31 and C32.  
Status: Comparison, search, reverse, partition, sort, ska_sort, copies inside the container and unique are proved for every container state. C96_history_partial needs the preconditions of the container operations of C25, C28 and C30 (where the code falls short of them); after ska_sort the elements are known to be sorted only where C42 proves it, and C96_unique_ska_sort_partial is for these cases. std::sort and the heap functions of the standard library are parameters; merges on containers are in C100.

**C97 Maps are equal exactly if they map the same keys to the same values** (partial; Maps.Compare)  
Model and proof: `Maps/Compare.lean`: the comparison operators of maps as the comparison algorithms of C47 on the stored elements; histories from C71 (a map represents a function from keys to values), and increasing lists with the same members are the same list.  
Status: Proved for flat maps whose order tells all keys apart (C97_flat_map_history, C97_flat_map_equal for every order, C97_order). It is false for linear_map, which compares the elements in the order in which they were inserted (C97_insertion_order_violated, C97_reinsertion_violated; C97_linear_map_partial says exactly when two linear maps are equal), and for flat maps with keys that the order does not tell apart (C97_equivalent_keys_violated).

**C98 A program over bounded integers runs as it would on mathematical integers** (partial; Bounded.Program)  
Model and proof: `Bounded/Program.lean`: a small imperative language with two semantics, one by the modelled operators and assignment, one on `Int`; static types of expressions; the two runs agree by induction on the program and the rounds of loops, with one exact condition on types for each operator.  
Status: Proved for all programs whose operators do not have operands of certain types (C98_program_partial, C98_same_end_partial, C98_never_throws_partial, C98_expression_partial). The excluded types are exactly those for which some operator is wrong for some values (C98_operator_exactly); with them it is false (C98_excluded_types_violated). Built-in operands, check_in_range and conversions to built-in types are in the programs of C115.

**C99 A program cannot tell which container it uses** (partial; Containers.Observe)  
Model and proof: `Containers/Observe.lean`: programs as trees that branch on every value read; run on the modelled container, on a sequence with a capacity, and on a sequence alone; the three agree by induction on the program.  
Status: Proved for all programs that keep to the preconditions of the operations, which are stronger than the documented ones because of C25-C28 (C99_session_partial, C99_sequence_partial, C99_independent_partial). data(), capacity(), addresses and iterators that outlive an operation can be observed and are not in the programs.

**C100 A map on a real container behaves as a map** (partial; Maps.OnVector)  
Model and proof: `Maps/OnVector.lean`: the operations of a map on the storage of any lawful container; each is shown to make the sequence that the map of C33 makes, or to throw and change nothing; histories by induction.  
Status: Proved for every history that keeps to the preconditions (C100_step_partial, C100_history_partial, C100_lookup, C100_insert); a map for which its greatest size was reserved has room for every key (C100_reserved). The claim fails because a vector doubles its capacity: a flat_map with three possible keys throws when the third is inserted one by one (C100_every_key_violated) and upsert of three is undefined (C100_upsert_violated); inserting a range of keys that are all present throws if the map is full (C100_present_keys_violated). Assumed: moving an element to itself does not clear it (C33), upsert gives each key once and old keys first (C33); no allocation of the merge or of upsert fails (C81).

**C101 Operators on bounded integers never throw and never invent a value** (partial; Bounded.NoThrow)  
Model and proof: `Bounded/NoThrow.lean`: the operators of the model on operands with arbitrary contents; the absence of exceptions is a property of the monad that every operator preserves; programs by induction.  
Status: Nothing throws: C101_operators, C101_functions, C101_program, C101_mixed, C101_references, C101_pow_log_digits, C101_accumulate, C101_tombstones, C101_to_string. Results come from valid operands and are exact: C101_result, C101_invalid_operand, C101_invalid_check. min and max are the exception: they can return an invalid operand without noticing it (C101_invalid_minimum_violated). C101_result is for integers of 64 to 128 bits, and for pairs of types that the operators compute without overflow (C98 says which).

**C102 Views of views of views are what the same functions are on lists** (proved; Views.Pipeline)  
Model and proof: `Views/Pipeline.lean`: a pipeline is a tree of views that is built as the code does it, depending on the kind of what is below; its meaning is the tree of list functions; induction over the tree with the theorems on single views. Exceptions: an invariant of iterators that each view keeps.  
Status: By induction over the pipeline: C102_elements (what is built has the elements of the list functions, with positions for forward and random access iterators; construction throws exactly for exact drops of too much), C102_loop, C102_equal, C102_never_throws, C102_kind (which pipelines there are and of what kind they are). Every range on the way has at most as many elements as the greatest difference of iterators. Concatenated and zipped views are only used as ranges of which the next element is asked for, so `reversed` and `adjacent` of them are not in the model; functions do not throw.

**C103 Containers are filled from any range, and survive a range that throws** (partial; Containers.FromView)  
Model and proof: `Containers/FromView.lean`: the copying and pushing loops run on iterators that may throw in every operation; what a loop over the range meets is an inductive relation, and by induction over it each loop does the same as the loop over a list of elements of which some throw, so that the theorems on containers apply.  
Status: C103_append, C103_assign_to_empty and C103_insert_partial for every container that satisfies `Lawful` (vector, static_vector, small buffer vector) and every range, which may throw at any point; C103_count_throws for exceptions while counting; C103_append_pipeline, C103_construct_pipeline and C103_insert_pipeline_partial for pipelines of views. Missing: `insert` of a range without size that can be gone through only once, for which the claim is false (C103_insert_violated: insert.cpp 116 uses the range up by counting it); the preconditions of C25-C28 are kept.

**C104 Programs with iterators see what the standard says** (partial; Containers.StdVector)  
Model and proof: `Containers/StdVector.lean`: programs are trees whose branches are chosen by what was read, iterators are addresses (block and slot). The specification is a sequence with a capacity and an index for every variable that is still valid. Induction over the program: one lemma per function says that it ends as specified and returns the address of the specified index, and the pointer rule of the containers gives that valid variables still have the address of their index.  
Status: C104_program_partial for every container that satisfies `Lawful`, C104_vector_partial and C104_inplace_vector_partial from an empty vector. Missing: the preconditions of C25-C28 that the standard does not have remain, among them that an insertion of nothing is at the end: C104_insert_nothing_violated shows that it is undefined at every other position of every vector. Reverse iterators (C63) and insertions of ranges that can be gone through only once (C103) are violated elsewhere and are not in the programs; constructors, assignment and swap of whole vectors are C25-C28 and C75.

**C105 Programs with iterators of linked lists see what the standard says** (partial; Lists.Programs)  
Model and proof: `Lists/Programs.lean`: programs are trees whose branches are chosen by what was read, iterators are addresses of nodes, end iterators addresses of lists. The specification is a sequence of elements with identities for every list (that of C31 and C58) and an identity for every variable. Induction over the program: every look is read off the links (the ring of the invariant is cut at the iterator), every call is the step theorem of C58 together with what the function returns. Validity of iterators comes from the elements that an operation keeps (C75).  
Status: C105_program_partial from any memory, C105_list_program_partial from nothing, C105_identities, C105_iterator_kept. Missing: the iterator that `insert` returns is not used by the programs (C62_list_insert_violated), the size of a list that was moved from or whose copy assignment threw (C105_moved_from_violated, C58_failed_assignment_violated), constructions that throw between the first and the last element (C31_failed_copy_violated), a range spliced to where it is (C31_splice_in_place_violated). The splices of `std_containers::list` itself pass a `list` where a `sized_list` is required and cannot be called; those of `sized_list` are modelled.

**C106 Programs with iterators of maps see what the standard says** (partial; Maps.Programs)  
Model and proof: `Maps/Programs.lean`: programs are trees as in C104, iterators are addresses. The specification is a list of elements with the position of every variable; which positions stay valid comes from the operation on the container that the standard describes (C75, C104). Induction over the program: searches are the binary searches of C33 on the memory of the container, insertions and erasures the map operations of C100 together with what they return. A range is appended, sorted and merged (uniquely or stably), or its duplicates are swapped to the end; the result for sorted maps is that of inserting its elements one by one, because a sorted sequence of different keys, and a stable sort, are unique.  
Status: C106_program_partial from any map, C106_empty_map_partial and C106_empty_static_map_partial from an empty one, C106_insert_keeps, C106_old_key, C106_linear_range, C106_erase_loop. Missing: `insert` of ranges with equal keys or that cannot be sorted into sorted maps (C33, C69), insertion into a full linear map whose capacity cannot be doubled (C26).

**C107 Programs with iterators of singly linked lists see what the documentation says** (partial; Lists.ForwardPrograms)  
Model and proof: `Lists/ForwardPrograms.lean`: programs are trees whose branches are chosen by what was read; iterators are addresses of nodes or of lists (`before_begin()`), or null. The specification is a sequence of elements with identities for every list (that of C32) and for every variable an identity or the end. Induction over the program: every look is read off the chain of the invariant, cut at the iterator; every call is the step theorem of C32 together with what the function returns. Validity of iterators comes from the elements that an operation keeps (C75).  
Status: C107_program_partial from any memory, C107_forward_list_program_partial from nothing, C107_identities, C107_iterator_kept. Missing: constructions of lists that throw between the first and the last element (C32_failed_copy_violated); splices within one list, which the code excludes by an assertion.

**C108 Programs with several vectors and iterators of them see what the standard says** (partial; Containers.ManyVectors)  
Model and proof: `Containers/ManyVectors.lean`: iterators are addresses and `*x` reads the heap without naming a vector. The specification has for every variable a vector and an index; moves and swaps change the vector. A step with one vector is the step theorem of C104 applied to the part of the state that belongs to it; a step with whole vectors is the step theorem of C25 (`Sys.step_ok`); what becomes of the variables follows from where the headers go.  
Status: C108_program_partial from any memory, C108_vectors_partial from nothing (with the absence of leaks), C108_iterators_follow for moves and swaps. Missing: a vector that has been moved from may only be assigned to, swapped, copied or destroyed, because push_back on it is undefined (C108_moved_from_violated); the preconditions that C104 has beyond the standard. A range of another vector is read when the function is called, which is the same because the function does not touch the other vector. C108_one_vector says that the calls with one vector are exactly those of C104, C108_argument_of_another what an argument from another vector stands for.

**C109 Reinterpreting bits as a bounded integer is exact or throws; hashes and formatted text depend on the value** (proved; Bounded.BitCast)  
Model and proof: `Bounded/BitCast.lean`: a source is its size and its object representation as a number, `std::bit_cast` reads it in two's complement. `pattern` is the representation of a value; `wrap_pattern` says that reading and representing are inverse, the rest follows from C10 (the storage holds the range) and C13 (checking).  
Status: The hash and the formatter of the built-in types are parameters. C109_format_is_to_string and C109_format_round_trip assume that the latter writes decimal numbers by default. C109_hash_of_another_type shows that equal values of types with different storage need not have equal hashes.

**C110 Programs with several small-buffer or static vectors and iterators of them see sequences with positions** (partial; Containers.ManySmall)  
Model and proof: `Containers/ManySmall.lean`: an iterator is a slot in a block or in an object (`Place`); the generic part is C108 for any kind of vectors (`Kind`, `Kind.Laws`) with a table of where elements go (`Goes`). A function of one vector sees the variables through `inward`, which hides the inside of other objects, and `outward` undoes it. The laws are proved for `sbo_vector` from the step lemmas of C30 and for `static_vector` from C28.  
Status: C110_sbo_vectors_partial and C110_static_vectors_partial from nothing; C110_iterators_follow for moves and swaps of large vectors, C110_place for where iterators point, C110_static_swap. Missing: the preconditions that C104 and C30 have beyond the standard (C104_insert_nothing_violated, C30_failed_allocation_violated); elements whose move assignment to themselves does something (static_vector). Vectors of one program are of one type.

**C111 Programs with several maps and iterators of them see sequences with positions** (partial; Maps.ManyMaps)  
Model and proof: `Maps/ManyMaps.lean`: a program for maps is run on the state of C108, with the map functions of C106 on the vector inside of each map. C106 additionally says of each function where iterators are afterwards (`Stays`), from which `MTracks.call` concludes for all iterators of all maps; constructors, assignments and destructors are those of the vectors, for which C108 has where iterators go (`whole`), with the order of keys (`Inv`) shown for each. The constructors from ranges are the vector's followed by sort and unique (`constructOn_spec`).  
Status: C111_program_partial and C111_maps_partial (from nothing); C111_others_stay, C111_swap, C111_union. False: copy assignment in which assigning an element throws leaves a flat_map whose keys are not in order (C111_copy_assignment_violated), and a map that has been moved from cannot be used like an empty one (C111_moved_from_violated). Missing: those, and what is missing in C106; maps are on vectors.

**C112 Programs with several static or small-buffer maps and iterators of them see sequences with positions** (partial; Maps.SmallMaps)  
Model and proof: `Maps/SmallMaps.lean`: as C111, for any kind of container of C110 (`Kind`, `Laws`): a pointer is into the heap or into an object. For whole containers it is needed that their operations keep keys in order (`Keeps`), shown for `static_vector` and `sbo_vector` under `statSafe` and `sboSafe`. The swaps are programs of moves, followed step by step.  
Status: C112_static_maps_partial and C112_sbo_maps_partial (from nothing); C112_others_stay, C112_union, C112_moved_from, C112_static_swap, C112_sbo_swap. False: move assignment of a static map leaves elements that have been moved from, whose keys need not be in order (C112_move_assignment_violated); copy assignment in which assigning an element throws leaves keys that are not in order (C112_copy_assignment_violated). Missing: those, self move assignment of static maps, and what is missing in C106.

**C113 Programs with iterators of remove_none see positions in a list of optional values** (partial; Views.RemoveNone)  
Model and proof: `Views/RemoveNone.lean`: the iterator is a position and the cached element (an address, a pointer or a value), functions as in the code. Invariant over all steps of a program: an iterator before the end has cached the element at its position. A reference is an optional object, an object, or the cache of an iterator. The loops are programs; their meaning on positions follows by induction over the steps.  
Status: C113_programs_partial for all programs, C113_loop, C113_update_loop, C113_stop (the specification of begin and ++). False: if the range shows optionals by value, a reference that an iterator has returned shows the next value when the iterator goes on (C113_reference_violated), and *begin() of a temporary iterator refers to an object that is gone (C113_temporary_violated); if the range shows pointers by value, constructing a value from *it moves from the object that the pointer points to (C113_pointers_violated). Missing: those; changes of stored pointers while iterators are at them; ranges with other iterators than positions (that end() of the range below does not change is assumed); optionals by value that are not trivially destructible, whose iterators cannot be copied (C61 has the single loop); exceptions from dereferencing.

**C114 Removing elements when an assignment throws** (proved; Algo.AssignThrows)  
Model and proof: `Algo/AssignThrows.lean`: programs of reads, calls and assignments (`MProg`), which are the algorithms of C80 if no assignment throws (`eraseIfM_toA`, `uniqueM_toA`, `exec_toA`). Induction over the elements to go: kept elements, a gap, the rest (`Stage`); after a failed assignment `Torn`.  
Status: C114_erase_if and C114_unique; C114_alive for any algorithm that reads, calls and assigns (also unique_copy). erase_if is modelled up to erase_to_end, which is C27. An assignment that throws is taken to change only its two operands.

**C115 Programs that mix bounded and built-in integers** (partial; Bounded.MixedProgram)  
Model and proof: `Bounded/MixedProgram.lean`: expressions, conditions and statements over bounded and built-in variables. One lemma for every overload (`opA_meets`, from `C98_operator_exactly` by `mixed_meets`), for check_in_range (`check_meets`, from C13), comparison and assignment; then induction over the expression, the statement and the rounds.  
Status: C115_program_partial, C115_expression_partial and C115_same_end_partial, for operands of the types for which the operators are right (C98, C68): C115_excluded_types_violated shows that subtracting an unsigned number is not. The left operand is evaluated first in the model; the language leaves the order open.

**C116 Views whose functions throw** (proved; Views.Throwing, Views.ThrowingSplit)  
Model and proof: `Views/Throwing.lean`: iterators whose operations call functions with a state and may throw, the views over them, loops. `Post` is a Hoare triple that holds from every state of the functions; `VisitsC` describes a range with it. One lemma per view (`findIfC_post`, `filterC_visits`, `takeC_visits`, `adjacentC_visits`, ...), induction over the view, then over the steps of the loop and over the attempts. `Views/ThrowingSplit.lean`: `split`, against `List.splitOnP`.  
Status: C116_view (what a view is, whatever its functions do), C116_loop and C116_retry (loops that exceptions stop and that go on), C116_view_retry (both together), C116_chunk_by, C116_split and C116_split_keep_delimiters (chunks and pieces, given by the iterators where they begin and end; the delimiter is an element). No range on the way may have more elements than the greatest difference of iterators (Fits). Increments are written it = it + 1: ++it comes from a library that is not in the repository. Elements of zip_smallest and adjacent are read from left to right in the model; the language leaves the order open. For join_with the ranges that are joined are references to containers: for ranges that are returned by value the iterators share a state in the view, which an increment changes before it throws.

**C117 Algorithms over views whose functions throw** (proved; Views.ThrowingAlgo, Views.ThrowingSearch)  
Model and proof: `Views/ThrowingAlgo.lean`: the loops of the algorithms over the iterators of `Views/Throwing.lean`. One lemma for each loop, by induction over the elements that are left (`countC_post`, `minLoopC_post`, `lexC_post`, ...), put together with C116_view. `Views/ThrowingSearch.lean`: binary search and the checks of order, `partition_point` by induction over the rounds with the list that is left split in the middle.  
Status: One theorem for each algorithm: C117_all, C117_any, C117_none, C117_maybe_find_if, C117_count_if, C117_distance, C117_accumulate, C117_min_element (for a strict weak order), C117_mismatch, C117_equal, C117_lexicographical_compare, C117_max_element, C117_starts_with, C117_is_sorted, C117_is_partitioned, C117_partition_point, C117_lower_bound, C117_upper_bound, C117_binary_search (orders are strict weak orders, ranges that are searched are sorted). The forms for ranges without a size, where the algorithm does not ask for one (the size of a view is then the number of its elements); advance without random access; counts without a bound (their types are in C94). Arguments are read from left to right in the model; the language leaves the order open.

**C118 Joined ranges that a throwing function returns by value** (partial; Views.ThrowingJoin)  
Model and proof: `Views/ThrowingJoin.lean`: the range that is current and the iterator into it are state of the view, carried along with the state of the functions. `AtV` relates an iterator and that state to the elements that are left; induction over the ranges for `normalize` (`joinNormalizeV_inner`, `joinNormalizeV_joiner`), then over the steps of the loop.  
Status: C118_join_by_value_partial is everything but the last sentence, which the code does not satisfy: C118_join_by_value_violated is a loop over join of three ranges whose second call throws; going on at its iterator increments the shared iterator beyond the end of the first range. For ranges that are references to containers the last sentence holds (C116). The iterators are those of an input range, of which no one may rely on copies after an increment; the sentence is about the iterator that was to be incremented.

**C119 Containers filled from views whose functions throw** (partial; Containers.AssignThrowing, Containers.ConcatenateThrowing, Containers.FromThrowingView)  
Model and proof: `Containers/FromThrowingView.lean`: the copying loop over the iterators of C116, which carry the state of the functions, meets all elements or an exception after some of them (`copyLoopC_eq`, by induction over the elements). How many elements were copied before the exception does not matter if there is room for all of them (`copyAt_swap`), and the operations with elements that do not throw show that there is; so the proofs of C103 apply. `Containers/AssignThrowing.lean`: `assign`, by induction over the elements that are there (`copyTruncateC_eq`); from the iterator that is reached on, the rest of the view is appended as in `append`. `Containers/ConcatenateThrowing.lean`: `assign` of trivially copyable elements.  
Status: C119_append is the whole statement for append to containers that can reserve. C119_append_fixed_partial (append to the others, and their constructors) misses elements for which there is no room in a container that is not empty, unless their number is known and more than the capacity: that is undefined (C28_append_violated). C119_insert_partial misses views without elements that are not inserted at the end, for which the code does not satisfy it (C119_insert_nothing_violated). C119_construct_partial misses more elements than the greatest size and allocations that fail (C25). C119_append_single_partial is the last sentence; it misses a full container whose capacity cannot be doubled (C26_push_back_violated). C119_assign_partial is assign for trivially copyable elements, which empties the container first; it misses the same as C119_construct_partial. C119_assign_elements is assign for other elements of containers that can reserve: an exception while elements are assigned leaves the first elements of the view followed by the old ones, and as many as there were.

**C120 Concatenating views whose functions throw** (partial; Containers.ConcatenateThrowing)  
Model and proof: `Containers/ConcatenateThrowing.lean`: both passes that count give the number of elements or throw (`countViews_post`); appending one view into the capacity appends all of its elements or leaves the container as it was (`appendIntoCapacityC_eq`, from `copyLoopC_eq` and `copyAt_swap` of C119); induction over the views (`appendViewsC_eq`); the destructor of the result gives back its storage (`dropResult_eq`). The state of the functions at the beginning of each append is arbitrary.  
Status: C120_concatenate_partial misses more elements than the greatest size, which is undefined (C25), arguments of the type of the result, whose storage may be reused (C49, where exceptions violate this), and views that can be gone through only once.

**C121 Linked lists filled from views whose functions throw** (partial; Lists.AssignThrowing, Lists.ForwardAssignThrowing, Lists.FromThrowingView, Lists.PlainViewHistory, Lists.ViewHistory)  
Model and proof: `Lists/FromThrowingView.lean`: one loop over any view and any function that adds an element (`feedC`), related by induction over the view (`VisitsC` of C116) to an invariant that is kept by adding an element (`feedC_eq`); the invariants are those of C31, C32 and C58 after the elements taken so far. `Took` says how many were taken and why it stopped. `Lists/AssignThrowing.lean` and `Lists/ForwardAssignThrowing.lean`: the loop that overwrites elements ends at the end of the list or of the view, or is stopped (`copyTruncateC_op`, by induction over the view), then `erase` of C31 (C32) and the loop above; `Partly` says what an exception leaves. `Lists/ViewHistory.lean`: histories of these and of the operations of C58, by induction over the history; the specification is a relation, since the functions decide where an exception comes. `Lists/PlainViewHistory.lean`: the same for lists without a counted size.  
Status: Construction of a list that does not count its size, and insert into it, lose the nodes made before the exception, since the body of the destructor does not run for an object whose constructor throws: C121_construct_violated, C121_construct_forward_violated. C121_construct_partial, C121_construct_forward_partial and C121_insert_partial are what holds of them. C121_append, C121_sized_append, C121_sized_construct, C121_sized_insert, C121_append_after, C121_assign, C121_sized_assign and C121_forward_assign miss nothing of the claim for their operations. C121_history_partial is about any sequence of operations on lists with a counted size; it misses the size of the lists that C58 says are stale. C121_plain_history_partial and C121_forward_history_partial are histories of lists without a counted size; the operations that lose nodes are not among them.

## Where the code disagrees with a property

Each of these theorems shows with a concrete program (or for every program of a class) that the
property fails for the code as it is. The property keeps its full statement; the theorems named
`_partial` say under which additional hypotheses it holds.

* C02: `C02_mul_exact_violated`
* C05: `C05_mod_exact_violated`
* C07: `C07_shl_violated`, `C07_shr_violated`
* C08: `C08_and_violated`
* C11: `C11_mul_violated`
* C12: `C12_mul_violated`
* C13: `C13_check_in_range_violated`
* C14: `C14_three_violated`
* C21: `C21_nullable_throw_violated`
* C25: `C25_insert_nothing_violated`, `C25_moved_from_violated`
* C26: `C26_push_back_violated`, `C26_append_violated`
* C27: `C27_failed_allocation_violated`, `C27_unsized_constructor_violated`
* C28: `C28_append_violated`
* C30: `C30_failed_allocation_violated`
* C31: `C31_splice_in_place_violated`, `C31_failed_copy_violated`
* C32: `C32_failed_copy_violated`
* C33: `C33_upsert_violated`, `C33_self_move_violated`, `C33_room_violated`, `C33_many_violated`
* C34: `C34_many_violated`
* C35: `C35_first_wins_violated`
* C39: `C39_branchless_stable_violated`
* C40: `C40_merge_relocate_complete_violated`, `C40_chunked_insertion_sort_violated`
* C42: `C42_american_flag_always_violated`, `C42_american_flag_violated`, `C42_range_of_tuples_violated`
* C43: `C43_char_violated`, `C43_zero_violated`
* C44: `C44_self_move_violated`
* C46: `C46_erase_if_count_violated`
* C48: `C48_keep_delimiters_equality_violated`, `C48_order_violated`
* C49: `C49_concatenate_exception_violated`
* C50: `C50_adjacent_end_minus_violated`, `C50_integer_range_downwards_violated`
* C52: `C52_sum_violated`
* C57: `C57_exception_violated`, `C57_construct_static_violated`
* C58: `C58_moved_from_violated`, `C58_move_assign_violated`, `C58_failed_assignment_violated`
* C59: `C59_moved_from_violated`
* C60: `C60_insert_room_violated`, `C60_insert_violated`
* C61: `C61_filter_violated`, `C61_remove_none_violated`, `C61_generate_n_order_violated`
* C62: `C62_list_insert_violated`
* C63: `C63_vector_reverse_violated`, `C63_list_reverse_violated`, `C63_list_algorithms_violated`
* C65: `C65_read_end_violated`, `C65_read_minus_violated`
* C67: `C67_literal_overflow_violated`, `C67_literal_octal_violated`
* C68: `C68_mod_violated`, `C68_sub_violated`, `C68_sub_unsigned_violated`, `C68_compound_builtin_violated`
* C69: `C69_fail_violated`
* C70: `C70_null_violated`
* C71: `C71_std_multimap_violated`
* C72: `C72_order_violated`
* C73: `C73_lvalues_violated`, `C73_sizes_violated`, `C73_rvalues_violated`
* C74: `C74_difference_violated`, `C74_default_violated`
* C78: `C78_fixed_size_merge_sort_violated`, `C78_merge_relocate_violated`, `C78_chunked_insertion_sort_violated`, `C78_sort_exactly_inconsistent_violated`, `C78_iterator_partition_inconsistent_violated`
* C80: `C80_unique_inplace_merge_violated`
* C81: `C81_flat_insert_range_violated`, `C81_flat_insert_range_loses_violated`, `C81_flat_insert_range_alloc_violated`, `C81_flat_insert_unsized_violated`, `C81_flat_upsert_violated`, `C81_linear_insert_range_violated`
* C82: `C82_span_index_violated`
* C85: `C85_list_append_itself_violated`, `C85_forward_append_after_itself_violated`
* C86: `C86_erase_violated`, `C86_list_remove_violated`
* C87: `C87_double_buffered_violated`
* C88: `C88_and_violated`, `C88_round_up_divide_violated`
* C90: `C90_variant_assign_violated`, `C90_nullable_emplace_violated`
* C92: `C92_inplace_swap_violated`
* C94: `C94_count_if_zero_size_violated`
* C95: `C95_construct_violated`, `C95_construct_sbo_violated`, `C95_assign_trivial_violated`, `C95_push_back_violated`
* C97: `C97_insertion_order_violated`, `C97_reinsertion_violated`, `C97_equivalent_keys_violated`
* C98: `C98_excluded_types_violated`
* C100: `C100_every_key_violated`, `C100_present_keys_violated`, `C100_upsert_violated`
* C101: `C101_invalid_minimum_violated`
* C103: `C103_insert_violated`
* C104: `C104_insert_nothing_violated`
* C105: `C105_moved_from_violated`
* C108: `C108_moved_from_violated`
* C111: `C111_copy_assignment_violated`, `C111_moved_from_violated`
* C112: `C112_move_assignment_violated`, `C112_copy_assignment_violated`
* C113: `C113_reference_violated`, `C113_temporary_violated`, `C113_pointers_violated`
* C115: `C115_excluded_types_violated`
* C118: `C118_join_by_value_violated`
* C119: `C119_insert_nothing_violated`
* C121: `C121_construct_violated`, `C121_construct_forward_violated`
