import Verif.Algo.SortNet

/-!
# The routines for one to five elements

`containers/algorithms/sort/sort_exactly_1.cpp` to `sort_exactly_5.cpp` and `sort_exactly_n.cpp`.
The trees follow the nested `if` statements of the source one to one.
-/

namespace Verif.Algo

variable {α : Type}

/-- `sort_exactly_n_in_place` of one element (`sort_exactly_1.cpp` 23-24). -/
def inPlace1 : Tree := .done []

/-- `sort_exactly_n_relocate_impl` of one element (`sort_exactly_1.cpp` 27-33). -/
def relocate1 : Tree := .done [.reloc 1 0]

/-- `sort_exactly_n_in_place_impl` of two elements (`sort_exactly_2.cpp` 23-31). -/
def inPlace2 : Tree := .ask 1 0 (.done (swap 0 1)) (.done [])

/-- `sort_exactly_n_relocate_impl` of two elements (`sort_exactly_2.cpp` 34-45). -/
def relocate2 : Tree := .ask 1 0 (.done (relocateInOrder 2 [1, 0])) (.done (relocateInOrder 2 [0, 1]))

/-- `sort_exactly_n_in_place_impl` of three elements (`sort_exactly_3.cpp` 26-52). -/
def inPlace3 : Tree :=
  .ask 1 0 (
    .ask 2 1 (
      .done (swap 0 2)) (
      .ask 2 0 (
        .done (rotateOne 3 0 [1, 2])) (
        .done (swap 0 1)))) (
    .ask 2 1 (
      .ask 2 0 (
        .done (rotateOne 3 0 [2, 1])) (
        .done (swap 1 2))) (
      .done ([])))

/-- `sort_exactly_n_relocate_impl` of three elements, not cheaply sortable (`sort_exactly_3.cpp` 78-98). -/
def minCompares3 : Tree :=
  .ask 1 0 (
    .ask 2 1 (
      .done (relocateInOrder 3 [2, 1, 0])) (
      .ask 2 0 (
        .done (relocateInOrder 3 [1, 2, 0])) (
        .done (relocateInOrder 3 [1, 0, 2])))) (
    .ask 2 1 (
      .ask 2 0 (
        .done (relocateInOrder 3 [2, 0, 1])) (
        .done (relocateInOrder 3 [0, 2, 1]))) (
      .done (relocateInOrder 3 [0, 1, 2])))

/-- `sort_exactly_n_in_place_impl` of four elements (`sort_exactly_4.cpp` 26-128). -/
def inPlace4 : Tree :=
  .ask 1 0 (
    .ask 2 1 (
      .ask 3 1 (
        .ask 3 2 (
          .done (swap 0 3 ++ swap 1 2)) (
          .done (rotateOne 4 0 [2, 1, 3]))) (
        .ask 3 0 (
          .done (rotateOne 4 0 [2, 3])) (
          .done (swap 0 2)))) (
      .ask 2 0 (
        .ask 3 2 (
          .ask 3 1 (
            .done (swap 0 3)) (
            .done (rotateOne 4 0 [1, 3]))) (
          .ask 3 0 (
            .done (rotateOne 4 0 [1, 2, 3])) (
            .done (rotateOne 4 0 [1, 2])))) (
        .ask 3 0 (
          .ask 3 1 (
            .done (rotateOne 4 0 [3, 2])) (
            .done (rotateOne 4 0 [1, 3, 2]))) (
          .ask 3 2 (
            .done (swap 0 1 ++ swap 2 3)) (
            .done (swap 0 1)))))) (
    .ask 2 1 (
      .ask 2 0 (
        .ask 3 0 (
          .ask 3 2 (
            .done (rotateOne 4 0 [3, 1, 2])) (
            .done (swap 0 2 ++ swap 1 3))) (
          .ask 3 1 (
            .done (rotateOne 4 0 [2, 3, 1])) (
            .done (rotateOne 4 0 [2, 1])))) (
        .ask 3 2 (
          .ask 3 0 (
            .done (rotateOne 4 0 [3, 1])) (
            .done (swap 1 3))) (
          .ask 3 1 (
            .done (rotateOne 4 1 [2, 3])) (
            .done (swap 1 2))))) (
      .ask 3 1 (
        .ask 3 0 (
          .done (rotateOne 4 0 [3, 2, 1])) (
          .done (rotateOne 4 1 [3, 2]))) (
        .ask 3 2 (
          .done (swap 2 3)) (
          .done ([])))))

/-- `sort_exactly_n_relocate_min_compares` (`sort_exactly_4.cpp` 169-270). -/
def minCompares4 : Tree :=
  .ask 1 0 (
    .ask 2 1 (
      .ask 3 1 (
        .ask 3 2 (
          .done (relocateInOrder 4 [3, 2, 1, 0])) (
          .done (relocateInOrder 4 [2, 3, 1, 0]))) (
        .ask 3 0 (
          .done (relocateInOrder 4 [2, 1, 3, 0])) (
          .done (relocateInOrder 4 [2, 1, 0, 3])))) (
      .ask 2 0 (
        .ask 3 2 (
          .ask 3 1 (
            .done (relocateInOrder 4 [3, 1, 2, 0])) (
            .done (relocateInOrder 4 [1, 3, 2, 0]))) (
          .ask 3 0 (
            .done (relocateInOrder 4 [1, 2, 3, 0])) (
            .done (relocateInOrder 4 [1, 2, 0, 3])))) (
        .ask 3 0 (
          .ask 3 1 (
            .done (relocateInOrder 4 [3, 1, 0, 2])) (
            .done (relocateInOrder 4 [1, 3, 0, 2]))) (
          .ask 3 2 (
            .done (relocateInOrder 4 [1, 0, 3, 2])) (
            .done (relocateInOrder 4 [1, 0, 2, 3])))))) (
    .ask 2 1 (
      .ask 2 0 (
        .ask 3 0 (
          .ask 3 2 (
            .done (relocateInOrder 4 [3, 2, 0, 1])) (
            .done (relocateInOrder 4 [2, 3, 0, 1]))) (
          .ask 3 1 (
            .done (relocateInOrder 4 [2, 0, 3, 1])) (
            .done (relocateInOrder 4 [2, 0, 1, 3])))) (
        .ask 3 2 (
          .ask 3 0 (
            .done (relocateInOrder 4 [3, 0, 2, 1])) (
            .done (relocateInOrder 4 [0, 3, 2, 1]))) (
          .ask 3 1 (
            .done (relocateInOrder 4 [0, 2, 3, 1])) (
            .done (relocateInOrder 4 [0, 2, 1, 3]))))) (
      .ask 3 1 (
        .ask 3 0 (
          .done (relocateInOrder 4 [3, 0, 1, 2])) (
          .done (relocateInOrder 4 [0, 3, 1, 2]))) (
        .ask 3 2 (
          .done (relocateInOrder 4 [0, 1, 3, 2])) (
          .done (relocateInOrder 4 [0, 1, 2, 3])))))

/-- `sort_exactly_n_in_place_impl` of five elements (`sort_exactly_5.cpp` 23-542). -/
def inPlace5 : Tree :=
  .ask 1 0 (
    .ask 3 2 (
      .ask 3 1 (
        .ask 4 1 (
          .ask 2 1 (
            .ask 4 3 (
              .done (swap 0 4 ++ swap 1 3)) (
              .ask 4 2 (
                .done (rotateOne 5 0 [3, 1, 4])) (
                .done (rotateOne 5 0 [3, 1, 2, 4])))) (
            .ask 2 0 (
              .ask 4 3 (
                .done (swap 0 4 ++ rotateOne 5 1 [3, 2])) (
                .done (rotateOne 5 0 [3, 2, 1, 4]))) (
              .ask 4 3 (
                .done (rotateOne 5 0 [4, 2, 1, 3])) (
                .done (swap 0 3 ++ rotateOne 5 1 [4, 2]))))) (
          .ask 4 0 (
            .ask 4 2 (
              .ask 2 0 (
                .done (rotateOne 5 0 [3, 2, 4])) (
                .done (swap 0 3 ++ swap 2 4))) (
              .ask 2 1 (
                .done (rotateOne 5 0 [3, 4] ++ swap 1 2)) (
                .done (rotateOne 5 0 [3, 4])))) (
            .ask 2 0 (
              .ask 2 1 (
                .done (swap 0 3 ++ swap 1 2)) (
                .done (swap 0 3))) (
              .ask 4 2 (
                .done (rotateOne 5 0 [3, 4, 2])) (
                .done (rotateOne 5 0 [3, 2])))))) (
        .ask 4 3 (
          .ask 3 0 (
            .ask 2 0 (
              .ask 4 1 (
                .done (swap 0 4 ++ swap 2 3)) (
                .done (rotateOne 5 0 [1, 4] ++ swap 2 3))) (
              .ask 4 1 (
                .done (rotateOne 5 0 [4, 2, 3])) (
                .done (rotateOne 5 0 [1, 4, 2, 3])))) (
            .ask 4 0 (
              .ask 4 1 (
                .done (rotateOne 5 0 [4, 2])) (
                .done (rotateOne 5 0 [1, 4, 2]))) (
              .done (swap 0 1 ++ swap 2 4)))) (
          .ask 4 2 (
            .ask 4 0 (
              .ask 2 0 (
                .done (rotateOne 5 0 [1, 3, 2, 4])) (
                .done (rotateOne 5 0 [1, 3] ++ swap 2 4))) (
              .ask 3 0 (
                .done (rotateOne 5 0 [1, 3, 4, 2])) (
                .done (swap 0 1 ++ rotateOne 5 2 [3, 4])))) (
            .ask 2 0 (
              .ask 4 0 (
                .done (rotateOne 5 0 [1, 3, 4])) (
                .done (rotateOne 5 0 [1, 3]))) (
              .ask 3 0 (
                .done (rotateOne 5 0 [1, 3, 2])) (
                .done (swap 0 1 ++ swap 2 3))))))) (
      .ask 2 1 (
        .ask 4 1 (
          .ask 3 1 (
            .ask 4 2 (
              .done (swap 0 4 ++ rotateOne 5 1 [2, 3])) (
              .ask 4 3 (
                .done (rotateOne 5 0 [2, 3, 1, 4])) (
                .done (rotateOne 5 0 [2, 4] ++ swap 1 3)))) (
            .ask 3 0 (
              .ask 4 2 (
                .done (swap 0 4 ++ swap 1 2)) (
                .done (rotateOne 5 0 [2, 1, 4]))) (
              .ask 4 2 (
                .done (rotateOne 5 0 [4, 3] ++ swap 1 2)) (
                .done (rotateOne 5 0 [2, 1, 4, 3]))))) (
          .ask 4 0 (
            .ask 4 3 (
              .ask 3 0 (
                .done (rotateOne 5 0 [2, 4])) (
                .done (rotateOne 5 0 [2, 4, 3]))) (
              .ask 3 1 (
                .done (rotateOne 5 0 [2, 1, 3, 4])) (
                .done (rotateOne 5 0 [2, 3, 4])))) (
            .ask 3 0 (
              .ask 3 1 (
                .done (rotateOne 5 0 [2, 1, 3])) (
                .done (rotateOne 5 0 [2, 3]))) (
              .ask 4 3 (
                .done (swap 0 2 ++ swap 3 4)) (
                .done (swap 0 2)))))) (
        .ask 4 2 (
          .ask 2 0 (
            .ask 3 0 (
              .ask 4 1 (
                .done (swap 0 4)) (
                .done (rotateOne 5 0 [1, 4]))) (
              .ask 4 1 (
                .done (rotateOne 5 0 [4, 3])) (
                .done (rotateOne 5 0 [1, 4, 3])))) (
            .ask 4 0 (
              .ask 4 1 (
                .done (rotateOne 5 0 [4, 3, 2])) (
                .done (rotateOne 5 0 [1, 4, 3, 2]))) (
              .done (swap 0 1 ++ rotateOne 5 2 [4, 3])))) (
          .ask 4 3 (
            .ask 4 0 (
              .ask 3 0 (
                .done (rotateOne 5 0 [1, 2, 4])) (
                .done (rotateOne 5 0 [1, 2, 4, 3]))) (
              .ask 2 0 (
                .done (rotateOne 5 0 [1, 2] ++ swap 3 4)) (
                .done (swap 0 1 ++ swap 3 4)))) (
            .ask 3 0 (
              .ask 4 0 (
                .done (rotateOne 5 0 [1, 2, 3, 4])) (
                .done (rotateOne 5 0 [1, 2, 3]))) (
              .ask 2 0 (
                .done (rotateOne 5 0 [1, 2])) (
                .done (swap 0 1)))))))) (
    .ask 3 2 (
      .ask 2 1 (
        .ask 4 2 (
          .ask 4 3 (
            .ask 3 0 (
              .ask 2 0 (
                .done (rotateOne 5 0 [4, 1, 3])) (
                .done (rotateOne 5 0 [4, 1, 3, 2]))) (
              .ask 4 0 (
                .done (rotateOne 5 0 [4, 1] ++ swap 2 3)) (
                .done (swap 1 4 ++ swap 2 3)))) (
            .ask 4 0 (
              .ask 2 0 (
                .done (swap 0 3 ++ swap 1 4)) (
                .done (rotateOne 5 0 [3, 2] ++ swap 1 4))) (
              .ask 3 0 (
                .done (rotateOne 5 0 [3, 2, 4, 1])) (
                .done (rotateOne 5 1 [3, 2, 4]))))) (
          .ask 2 0 (
            .ask 4 0 (
              .done (swap 0 3 ++ rotateOne 5 1 [2, 4])) (
              .ask 4 1 (
                .done (rotateOne 5 0 [3, 4, 1, 2])) (
                .done (rotateOne 5 0 [3, 1, 2])))) (
            .ask 3 0 (
              .ask 4 1 (
                .done (rotateOne 5 0 [3, 4, 1])) (
                .done (rotateOne 5 0 [3, 1]))) (
              .ask 4 1 (
                .done (rotateOne 5 1 [3, 4])) (
                .done (swap 1 3)))))) (
        .ask 4 1 (
          .ask 4 0 (
            .ask 3 0 (
              .ask 4 3 (
                .done (rotateOne 5 0 [4, 2] ++ swap 1 3)) (
                .done (rotateOne 5 0 [3, 1, 4, 2]))) (
              .ask 3 1 (
                .done (rotateOne 5 0 [4, 2, 3, 1])) (
                .done (rotateOne 5 0 [4, 2, 1])))) (
            .ask 4 3 (
              .ask 3 1 (
                .done (rotateOne 5 1 [4, 2, 3])) (
                .done (rotateOne 5 1 [4, 2]))) (
              .ask 3 0 (
                .done (rotateOne 5 0 [3, 1] ++ swap 2 4)) (
                .done (swap 1 3 ++ swap 2 4))))) (
          .ask 3 1 (
            .ask 3 0 (
              .ask 4 2 (
                .done (rotateOne 5 0 [3, 4, 2, 1])) (
                .done (rotateOne 5 0 [3, 2, 1]))) (
              .ask 4 2 (
                .done (rotateOne 5 1 [3, 4, 2])) (
                .done (rotateOne 5 1 [3, 2])))) (
            .ask 4 2 (
              .ask 4 3 (
                .done (swap 2 4)) (
                .done (rotateOne 5 2 [3, 4]))) (
              .done (swap 2 3)))))) (
      .ask 3 1 (
        .ask 4 3 (
          .ask 4 2 (
            .ask 2 0 (
              .ask 3 0 (
                .done (rotateOne 5 0 [4, 1, 2, 3])) (
                .done (rotateOne 5 0 [4, 1, 2]))) (
              .ask 4 0 (
                .done (rotateOne 5 0 [4, 1])) (
                .done (swap 1 4)))) (
            .ask 4 0 (
              .ask 3 0 (
                .done (rotateOne 5 0 [2, 3] ++ swap 1 4)) (
                .done (swap 0 2 ++ swap 1 4))) (
              .ask 2 0 (
                .done (rotateOne 5 0 [2, 4, 1])) (
                .done (rotateOne 5 1 [2, 4]))))) (
          .ask 3 0 (
            .ask 4 0 (
              .done (rotateOne 5 0 [2, 4, 1, 3])) (
              .ask 4 1 (
                .done (swap 0 2 ++ rotateOne 5 1 [3, 4])) (
                .done (swap 0 2 ++ swap 1 3)))) (
            .ask 2 0 (
              .ask 4 1 (
                .done (rotateOne 5 0 [2, 3, 4, 1])) (
                .done (rotateOne 5 0 [2, 3, 1]))) (
              .ask 4 1 (
                .done (rotateOne 5 1 [2, 3, 4])) (
                .done (rotateOne 5 1 [2, 3])))))) (
        .ask 4 1 (
          .ask 4 0 (
            .ask 2 0 (
              .ask 4 2 (
                .done (rotateOne 5 0 [4, 3, 1, 2])) (
                .done (swap 0 2 ++ rotateOne 5 1 [4, 3]))) (
              .ask 2 1 (
                .done (rotateOne 5 0 [4, 3, 1])) (
                .done (rotateOne 5 0 [4, 3, 2, 1])))) (
            .ask 4 2 (
              .ask 2 1 (
                .done (rotateOne 5 1 [4, 3])) (
                .done (rotateOne 5 1 [4, 3, 2]))) (
              .ask 2 0 (
                .done (rotateOne 5 0 [2, 4, 3, 1])) (
                .done (rotateOne 5 1 [2, 4, 3]))))) (
          .ask 2 1 (
            .ask 2 0 (
              .ask 4 3 (
                .done (rotateOne 5 0 [2, 1] ++ swap 3 4)) (
                .done (rotateOne 5 0 [2, 1]))) (
              .ask 4 3 (
                .done (swap 1 2 ++ swap 3 4)) (
                .done (swap 1 2)))) (
            .ask 4 3 (
              .ask 4 2 (
                .done (rotateOne 5 2 [4, 3])) (
                .done (swap 3 4))) (
              .done ([])))))))

/-- `auto const r = !compare(b, a) ? low_high_ref(a, b) : low_high_ref(b, a)` followed by uses of
`r.low` and `r.high` (`low_high_ref.cpp`). -/
def lowHigh (a b : Nat) (k : Nat → Nat → Tree) : Tree := .ask b a (k b a) (k a b)

/-- `sort_exactly_n_relocate_impl` of three elements, cheaply sortable (`sort_exactly_3.cpp` 63-76). -/
def branchless3 : Tree :=
  let last (low high : Nat) (lowestInFirst highestInFirst : Bool) : Tree :=
    .done (relocateInOrder 3 [
      if lowestInFirst then low else 2,
      if !lowestInFirst then low else if !highestInFirst then high else 2,
      if highestInFirst then high else 2])
  lowHigh 0 1 fun low high =>
    .ask 2 low
      (.ask 2 high (last low high false true) (last low high false false))
      (.ask 2 high (last low high true true) (last low high true false))

/-- `sort_exactly_n_relocate_branchless` (`sort_exactly_4.cpp` 136-161). -/
def branchless4 : Tree :=
  lowHigh 0 1 fun firstLow firstHigh =>
  lowHigh 2 3 fun secondLow secondHigh =>
  lowHigh firstLow secondLow fun lowLow lowHigh' =>
  lowHigh firstHigh secondHigh fun highLow highHigh =>
  lowHigh lowHigh' highLow fun middleLow middleHigh =>
    .done (relocateInOrder 4 [lowLow, middleLow, middleHigh, highHigh])

/-- Overload resolution of `sort_exactly_n_in_place_impl` by the number of elements; there are
overloads for one to five (`sort_exactly_n.cpp` 29-33). -/
def inPlaceTree : Nat → Option Tree
  | 1 => some inPlace1
  | 2 => some inPlace2
  | 3 => some inPlace3
  | 4 => some inPlace4
  | 5 => some inPlace5
  | _ => none

/-- Overload resolution of `sort_exactly_n_relocate_impl`; `cheap` is
`cheaply_sortable<T, Compare>` (`sort_exactly_3.cpp` 62, `sort_exactly_4.cpp` 282). -/
def relocateTree (cheap : Bool) : Nat → Option Tree
  | 1 => some relocate1
  | 2 => some relocate2
  | 3 => some (if cheap then branchless3 else minCompares3)
  | 4 => some (if cheap then branchless4 else minCompares4)
  | _ => none

/-- The parameters `x0 ..` are the elements from `it` on; the other name is the storage of
`rotate_one`, at `temp`. -/
def inPlaceAt (it n temp i : Nat) : Nat := if i < n then it + i else temp

/-- The parameters `x0 ..` are the elements from `it` on; the other names are the destinations. -/
def relocateFrom (it n out i : Nat) : Nat := if i < n then it + i else out + (i - n)

/-- `sort_exactly_n_in_place` (`sort_exactly_n.cpp` 29-33). `none`: undefined behaviour or no such
overload. `temp` is the address of the local storage of `rotate_one`. -/
def sortExactlyInPlace (lt : α → α → Bool) (m : Mem α) (it n temp : Nat) : Option (Mem α) :=
  (inPlaceTree n).bind fun t => t.run lt (inPlaceAt it n temp) m

/-- `sort_exactly_n_relocate` (`sort_exactly_n.cpp` 36-41). -/
def sortExactlyRelocate (cheap : Bool) (lt : α → α → Bool) (m : Mem α) (it n out : Nat) : Option (Mem α) :=
  (relocateTree cheap n).bind fun t => t.run lt (relocateFrom it n out) m

/-- `sort_exactly_n` (`sort_exactly_n.cpp` 44-53); `temp` is the address of the local array or storage. -/
def sortExactly (cheap : Bool) (lt : α → α → Bool) (m : Mem α) (it n temp : Nat) : Option (Mem α) :=
  if cheap = true ∧ n ≤ 4 then do
    let m ← sortExactlyRelocate cheap lt m it n temp
    m.relocateRange temp it n
  else
    sortExactlyInPlace lt m it n temp

/-! ## The checks -/

theorem inPlaceTree_check {n : Nat} {t : Tree} (ht : inPlaceTree n = some t) : t.check true n (n + 1) 0 [] = true := by
  match n, ht with
  | 1, ht => cases ht; decide +kernel
  | 2, ht => cases ht; decide +kernel
  | 3, ht => cases ht; decide +kernel
  | 4, ht => cases ht; decide +kernel
  | 5, ht => cases ht; decide +kernel

/-- Which of the relocating routines are stable. -/
def relocateStable (cheap : Bool) (n : Nat) : Bool := !(cheap && n == 4)

theorem relocateTree_check {cheap : Bool} {n : Nat} {t : Tree} (ht : relocateTree cheap n = some t) :
    t.check (relocateStable cheap n) n (n + n) n [] = true := by
  match n, cheap, ht with
  | 1, true, ht => cases ht; decide +kernel
  | 1, false, ht => cases ht; decide +kernel
  | 2, true, ht => cases ht; decide +kernel
  | 2, false, ht => cases ht; decide +kernel
  | 3, true, ht => cases ht; decide +kernel
  | 3, false, ht => cases ht; decide +kernel
  | 4, true, ht => cases ht; decide +kernel
  | 4, false, ht => cases ht; decide +kernel

end Verif.Algo
