import Verif.Algo.Partition
import Verif.Algo.KeyDesc

/-!
# The model of ska_sort (C42)

`containers/algorithms/sort/inplace_radix_sort.cpp`, `common_prefix.cpp` and `ska_sort.cpp`. Iterators are addresses. The standard
library's sort is a parameter. The nested templates that visit the parts of a key are recursion over
its description; pointers to the next sort are functions.

Every sort also returns whether some `american_flag_sort` in it left early without sorting the
blocks it made (a ghost value, see `americanFlagSort`).
-/

namespace Verif.Algo

variable {α : Type}

/-- A sort of the elements from an address on; the flag tells whether some part was left early. -/
abbrev Sorter (α : Type) := Mem α → Nat → Nat → Option (Mem α × Bool)

/-- `NextSort` (`inplace_radix_sort.cpp` 66-67); `none` is the `sort_starter` of `SubKey<void>`, which does nothing. -/
def runNext (next : Option (Sorter α)) : Sorter α := fun m first n =>
  match next with
  | none => some (m, false)
  | some g => g m first n

/-- A sort that is only run if there is more than one element (`inplace_radix_sort.cpp` 259-267, 303-311, 392-398, 399-406). -/
def sortMany (g : Sorter α) : Sorter α := fun m first n => if n > 1 then g m first n else some (m, false)

/-! ## Counting -/

/-- `PartitionCounts` (`inplace_radix_sort.cpp` 165-169) as `partition_counts` returns it. `remaining` has `number` elements. -/
structure Parts where
  offset : Nat → Nat
  next : Nat → Nat
  remaining : List Nat

/-- The histogram (`inplace_radix_sort.cpp` 187-189). -/
def digitCounts (dg : α → Nat) (m : Mem α) : Nat → Nat → (Nat → Nat) → Option (Nat → Nat)
  | 0, _, c => some c
  | k + 1, it, c => do
    let v ← m it
    digitCounts dg m k (it + 1) (upd c (dg v) (c (dg v) + 1))

/-- The loop over the blocks (`inplace_radix_sort.cpp` 190-201). -/
def partsLoop (c : Nat → Nat) : Nat → Nat → Nat → Parts → Parts
  | 0, _, _, p => p
  | k + 1, i, total, p => partsLoop c k (i + 1) (total + c i)
      { offset := upd p.offset i total, next := upd p.next i (total + c i), remaining := if c i = 0 then p.remaining else p.remaining ++ [i] }

/-- `partition_counts` (`inplace_radix_sort.cpp` 185-203). -/
def partitionCounts (dg : α → Nat) (m : Mem α) (first n : Nat) : Option Parts := do
  let c ← digitCounts dg m n first fun _ => 0
  some (partsLoop c 256 0 0 ⟨fun _ => 0, fun _ => 0, []⟩)

/-! ## American flag sort -/

/-- The inner loop that looks for the next block (`inplace_radix_sort.cpp` 236-243); `some none` is the `return`. -/
def nextBlock (ps : Parts) (offset : Nat → Nat) : Nat → Nat → Option (Option Nat)
  | 0, _ => none
  | f + 1, ci =>
    if ci + 1 = ps.remaining.length - 1 then some none
    else do
      let c ← ps.remaining[ci + 1]?
      if offset c ≠ ps.next c then some (some (ci + 1)) else nextBlock ps offset f (ci + 1)

/-- The loop of `american_flag_sort` (`inplace_radix_sort.cpp` 229-253). The flag tells that the function returned. -/
def flagLoop (dg : α → Nat) (ps : Parts) (first n : Nat) : Nat → Mem α → (Nat → Nat) → Nat → Nat → Option (Mem α × Bool)
  | 0, _, _, _, _ => none
  | f + 1, m, offset, ci, it => do
    let v ← m it
    let cur ← ps.remaining[ci]?
    if dg v = cur then
      if it + 1 = first + n - 1 then some (m, false)
      else if it + 1 = first + ps.next cur then do
        let r ← nextBlock ps offset ps.remaining.length ci
        match r with
        | none => some (m, true)
        | some ci => do
          let c ← ps.remaining[ci]?
          flagLoop dg ps first n f m offset ci (first + offset c)
      else flagLoop dg ps first n f m offset ci (it + 1)
    else if offset (dg v) < n then do
      let m ← m.swapAt it (first + offset (dg v))
      flagLoop dg ps first n f m (upd offset (dg v) (offset (dg v) + 1)) ci it
    else none

/-- The loop that sorts the blocks (`inplace_radix_sort.cpp` 255-269). -/
def flagRecurse (rec : Sorter α) (ps : Parts) (first : Nat) : List Nat → Nat → Mem α → Option (Mem α × Bool)
  | [], _, m => some (m, false)
  | d :: ds, start, m => do
    let (m, e) ← sortMany rec m start (first + ps.next d - start)
    let (m, e') ← flagRecurse rec ps first ds (first + ps.next d) m
    some (m, e || e')

/-- The part of `american_flag_sort` that moves the elements (`inplace_radix_sort.cpp` 225-254). -/
def flagMove (dg : α → Nat) (ps : Parts) : Sorter α := fun m first n =>
  if ps.remaining.length > 1 then flagLoop dg ps first n (n + 1) m ps.offset 0 first else some (m, false)

/-- `american_flag_sort` (`inplace_radix_sort.cpp` 217-270). When it returns early (line 239) the blocks are not sorted; `done`
says that there is nothing left to sort in them, so that this is harmless. -/
def americanFlagSort (dg : α → Nat) (done : Bool) (rec : Sorter α) : Sorter α := fun m first n => do
  let ps ← partitionCounts dg m first n
  let (m, early) ← flagMove dg ps m first n
  if early then some (m, !done) else flagRecurse rec ps first ps.remaining first m

/-! ## ska_byte_sort -/

/-- The state of the predicate: the elements and the offsets. -/
abbrev SkaState (α : Type) := Mem α × (Nat → Nat)

/-- The loop over one block (`inplace_radix_sort.cpp` 284-293). -/
def skaBlock (dg : α → Nat) (first n : Nat) : Nat → Nat → SkaState α → Option (SkaState α)
  | 0, _, st => some st
  | k + 1, it, st => do
    let v ← st.1 it
    if st.2 (dg v) < n then do
      let m ← if it ≠ first + st.2 (dg v) then st.1.swapAt it (first + st.2 (dg v)) else some st.1
      skaBlock dg first n k (it + 1) (m, upd st.2 (dg v) (st.2 (dg v) + 1))
    else none

/-- The predicate given to `partition` (`inplace_radix_sort.cpp` 278-295). -/
def skaPredicate (dg : α → Nat) (ps : Parts) (first n : Nat) (st : SkaState α) (index : Nat) : Option (Bool × SkaState α) :=
  if st.2 index = ps.next index then some (false, st)
  else do
    let st' ← skaBlock dg first n (ps.next index - st.2 index) (first + st.2 index) st
    some (true, st')

/-- `find_if_not` with a predicate that has a state. -/
def findNotS {σ : Type} (p : σ → Nat → Option (Bool × σ)) (rem : List Nat) : Nat → Nat → σ → Option (Nat × σ)
  | 0, i, st => some (i, st)
  | k + 1, i, st => do
    let x ← rem[i]?
    let (b, st) ← p st x
    if b then findNotS p rem k (i + 1) st else some (i, st)

/-- `advance_last` (`partition.cpp` 71-78) with a predicate that has a state; `k` is `last - first`. -/
def advanceLastS {σ : Type} (p : σ → Nat → Option (Bool × σ)) (rem : List Nat) (first : Nat) : Nat → σ → Option (Nat × σ)
  | 0, st => some (first, st)
  | k + 1, st => do
    let x ← rem[first + k]?
    let (b, st) ← p st x
    if b then some (first + k, st) else advanceLastS p rem first k st

/-- The loop of `partition` (`partition.cpp` 81-88) with a predicate that has a state. -/
def partitionLoopS {σ : Type} (p : σ → Nat → Option (Bool × σ)) : Nat → List Nat → Nat → Nat → σ → Option (List Nat × Nat × σ)
  | 0, _, _, _, _ => none
  | f + 1, rem, first, last, st =>
    if first = last then some (rem, first, st)
    else do
      let a ← rem[first]?
      let b ← rem[last]?
      let rem := (rem.set first b).set last a
      let (first, st) ← findNotS p rem (last - first) first st
      if first = last then some (rem, first, st)
      else do
        let (last, st) ← advanceLastS p rem first (last - first) st
        partitionLoopS p f rem first last st

/-- `partition` (`partition.cpp` 62-101) of the first `last` elements with a predicate that has a state. -/
def partitionS {σ : Type} (p : σ → Nat → Option (Bool × σ)) (rem : List Nat) (last : Nat) (st : σ) : Option (List Nat × Nat × σ) := do
  let (first, st) ← findNotS p rem last 0 st
  let (last, st) ← advanceLastS p rem first (last - first) st
  partitionLoopS p (last - first + 1) rem first last st

/-- The loop until at most one block remains (`inplace_radix_sort.cpp` 277-296). -/
def skaLoop {σ : Type} (p : σ → Nat → Option (Bool × σ)) : Nat → List Nat → Nat → σ → Option (List Nat × σ)
  | 0, _, _, _ => none
  | f + 1, rem, last, st =>
    if last > 1 then do
      let (rem, last, st) ← partitionS p rem last st
      skaLoop p f rem last st
    else some (rem, st)

/-- The loop that sorts the blocks, from the last element of `remaining` to the first
(`inplace_radix_sort.cpp` 297-312). -/
def skaRecurse (rec : Sorter α) (ps : Parts) (first : Nat) : List Nat → Mem α → Option (Mem α × Bool)
  | [], m => some (m, false)
  | d :: ds, m => do
    let start := if d = 0 then 0 else ps.next (d - 1)
    let (m, e) ← sortMany rec m (first + start) (ps.next d - start)
    let (m, e') ← skaRecurse rec ps first ds m
    some (m, e || e')

/-- `ska_byte_sort` (`inplace_radix_sort.cpp` 272-313). -/
def skaByteSort (dg : α → Nat) (rec : Sorter α) : Sorter α := fun m first n => do
  let ps ← partitionCounts dg m first n
  let (rem, st) ← skaLoop (skaPredicate dg ps first n) (n + ps.remaining.length + 1) ps.remaining ps.remaining.length (m, ps.offset)
  skaRecurse rec ps first rem.reverse st.1

/-! ## Keys -/

/-- `current_byte` (`inplace_radix_sort.cpp` 180-183) with `r = number_of_bytes - 1 - offset`. -/
def currentByte (f : α → Nat) (r : Nat) (x : α) : Nat := (f x >>> (r * 8)) % 256

/-- The thresholds and the sort of the standard library by the whole key. -/
structure SkaParams (α : Type) where
  stdThreshold : Nat
  flagThreshold : Nat
  std : Mem α → Nat → Nat → Option (Mem α)

/-- `containers::sort(to_sort, extract_key_to_less(extract_key))`. -/
def SkaParams.stdSort (P : SkaParams α) : Sorter α := fun m first n => do
  let m ← P.std m first n
  some (m, false)

/-- `sort_selector` (`inplace_radix_sort.cpp` 205-216) with `r` bytes left. -/
def sortSelector (P : SkaParams α) (f : α → Nat) (next : Option (Sorter α)) : Nat → Sorter α
  | 0, m, first, n => runNext next m first n
  | r + 1, m, first, n =>
    if n ≤ P.stdThreshold then P.stdSort m first n
    else if n < P.flagThreshold then americanFlagSort (currentByte f r) (r == 0 && next.isNone) (sortSelector P f next r) m first n
    else skaByteSort (currentByte f r) (sortSelector P f next r) m first n

/-- The loop of `std::mismatch` from index `i` on: the number of equal elements. -/
def matchLength (eq : Nat → Bool) : Nat → Nat → Nat
  | 0, _ => 0
  | k + 1, i => if eq i then matchLength eq k (i + 1) + 1 else 0

/-- The loop of `common_prefix` (`common_prefix.cpp` 41-55). -/
def prefixScan (len : α → Nat) (eq : Nat → α → α → Bool) (start : Nat) (m : Mem α) (x : α) : Nat → Nat → Nat → Option Nat
  | 0, _, largest => some largest
  | k + 1, it, largest => do
    let y ← m it
    if start ≤ len y then
      prefixScan len eq start m x k (it + 1) (min largest (matchLength (fun i => eq i x y) (min (len x) (len y) - start) start))
    else none

/-- `common_prefix` (`common_prefix.cpp` 28-57). -/
def commonPrefix (len : α → Nat) (eq : Nat → α → α → Bool) (start : Nat) (m : Mem α) (first n : Nat) : Option Nat :=
  match n with
  | 0 => some 0
  | n + 1 => do
    let x ← m first
    if start ≤ len x then prefixScan len eq start m x n (first + 1) (len x - start) else none

/-- `ListInplaceSorter::sort` (`inplace_radix_sort.cpp` 373-407) with `current_index = idx`; `rest` is `sort_from_recursion`, given the next index. -/
def listStep (len : α → Nat) (eq : Nat → α → α → Bool) (elemSort : Nat → Option (Sorter α) → Sorter α) (next : Option (Sorter α)) (rest : Nat → Sorter α) (idx : Nat) :
    Sorter α := fun m first n => do
  let k ← commonPrefix len eq idx m first n
  let (m, middle) ← partition true m (fun x => decide (len x ≤ idx + k)) first (first + n)
  let (m, e1) ← sortMany (runNext next) m first (middle - first)
  let (m, e2) ← sortMany (elemSort (idx + k) (some (rest (idx + k + 1)))) m middle (first + n - middle)
  some (m, e1 || e2)

/-- `ListInplaceSorter` (`inplace_radix_sort.cpp` 341-420) with `recursion_limit = limit + 1`; `sort_from_recursion` (lines 409-419) goes over to the sort of
the standard library at the limit. -/
def listSort (P : SkaParams α) (len : α → Nat) (eq : Nat → α → α → Bool) (elemSort : Nat → Option (Sorter α) → Sorter α) (next : Option (Sorter α)) : Nat → Nat → Sorter α
  | 0 => listStep len eq elemSort next fun _ => P.stdSort
  | limit + 1 => listStep len eq elemSort next (listSort P len eq elemSort next limit)

namespace Desc

/-- Equality of keys as the code computes it (`==` of the key type). -/
def sameB : Desc α → α → α → Bool
  | bool f => fun x y => f x == f y
  | num _ f => fun x y => f x == f y
  | list _ len elem => fun x y => len x == len y && (List.range (len x)).all fun i => (elem i).sameB x y
  | tuple n comp => fun x y => (List.range n).all fun i => (comp i).sameB x y

/-- `element_key(lhs) == element_key(rhs)`: of a tuple only the first sub key is compared
(`inplace_radix_sort.cpp` 378-380, 124-129; `common_prefix.cpp` 50-52). -/
def headEq : Desc α → α → α → Bool
  | tuple _ comp => (comp 0).headEq
  | d => d.sameB

/-- The sub keys of a key in order (`SubKey` and its `next`, `inplace_radix_sort.cpp` 75-163). -/
def chain : Desc α → List (Desc α)
  | tuple n comp => (List.range n).flatMap fun i => (comp i).chain
  | d => [d]

end Desc

/-- `inplace_sort` (`inplace_radix_sort.cpp` 319-339) for one sub key; the sub key of a tuple is the first sub key of its first
component, which matters for elements of ranges (`ElementSubKey`, lines 359-371: the other sub
keys are not visited). -/
def inplaceSort (P : SkaParams α) : Desc α → Option (Sorter α) → Sorter α
  | .bool f, next, m, first, n => do
    let (m, middle) ← partition true m (fun x => !f x) first (first + n)
    let (m, e1) ← runNext next m first (middle - first)
    let (m, e2) ← runNext next m middle (first + n - middle)
    some (m, e1 || e2)
  | .num bytes f, next, m, first, n => sortSelector P f next bytes m first n
  | .list _ len elem, next, m, first, n =>
    listSort P len (fun i => (elem i).headEq) (fun i => inplaceSort P (elem i)) next 15 0 m first n
  | .tuple _ comp, next, m, first, n => inplaceSort P (comp 0) next m first n

/-- `sort_starter` (`inplace_radix_sort.cpp` 422-436). -/
def sortStarter (P : SkaParams α) : List (Desc α) → Option (Sorter α)
  | [] => none
  | d :: ds => some fun m first n => if n ≤ 1 then some (m, false) else inplaceSort P d (sortStarter P ds) m first n

/-- `inplace_radix_sort` (`inplace_radix_sort.cpp` 438-442). -/
def inplaceRadixSort (P : SkaParams α) (d : Desc α) : Sorter α := fun m first n => runNext (sortStarter P d.chain) m first n

/-- `ska_sort` (`ska_sort.cpp` 25-37). -/
def skaSort (std : Mem α → Nat → Nat → Option (Mem α)) (d : Desc α) : Sorter α := inplaceRadixSort ⟨128, 1024, std⟩ d

/-! ## Data for examples -/

/-- A fallback sort that must not be called, for examples. -/
def exStd : Mem Nat → Nat → Nat → Option (Mem Nat) := fun _ _ _ => none

/-- 129 numbers that are not sorted by `ska_sort`. -/
def badInput : List Nat := [1, 0] ++ List.replicate 127 256

end Verif.Algo
