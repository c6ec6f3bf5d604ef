import Verif.Algo.SkaProps
import Verif.Algo.SkaEarly
import Verif.Algo.UniqueProps

/-!
# Sorted maps (C33, C34): the model

`containers/flat_map.cpp`. The contents of the underlying container are a list; what the container's own operations (append, insertion at a
position, erasing) do to it is the subject of C25. The algorithms that the map runs on the storage of its container are the
models of `Algo`, run on memory that holds the contents from address zero on. `none` is undefined behaviour or, when the greatest size of the
container is exceeded, failure. Constructors and assignments of elements do not throw.
-/

namespace Verif.Maps

open Verif.Algo

variable {κ μ α : Type}

/-- The parameters of a map with keys `κ` and mapped values `μ`; its elements are pairs (`map_value_type`). -/
structure Cfg (κ μ : Type) where
  /-- `<` on the extracted keys (`extract_key_to_less.cpp` 20-22) -/
  lt : κ → κ → Bool
  /-- `==` on the extracted keys -/
  eq : κ → κ → Bool
  /-- The extracted key as the radix sort sees it (`flat_map.cpp` 54-72 `extract_map_key`) -/
  desc : Desc (κ × μ)
  /-- `std::sort` as called by the radix sort -/
  std : Mem (κ × μ) → Nat → Nat → Option (Mem (κ × μ))
  /-- `std::inplace_merge` (memory, first, middle, last) -/
  merge : Mem (κ × μ) → Nat → Nat → Nat → Option (Mem (κ × μ))
  /-- What moving from an element does to it -/
  mv : MoveKind
  /-- The greatest size of the underlying container -/
  mx : Nat

/-- `compare()` on elements (`flat_map.cpp` 121-123). -/
def Cfg.elt (C : Cfg κ μ) (x y : κ × μ) : Bool := C.lt x.1 y.1

/-- The memory that holds the contents of a container. -/
def memOf (xs : List α) : Mem α := fun a => xs[a]?

/-- The contents of a container of size `n`. -/
def readBack (m : Mem α) (n : Nat) : Option (List α) := (List.range n).mapM m

/-- Inserting an element into the underlying container (`containers::lazy_insert`, `insert.cpp` 140-151). -/
def Cfg.insertAt (C : Cfg κ μ) (xs : List (κ × μ)) (position : Nat) (e : κ × μ) : Option (List (κ × μ)) :=
  if xs.length + 1 ≤ C.mx then some (xs.take position ++ e :: xs.drop position) else none

/-- `containers::append(m_container, range)`. -/
def Cfg.append (C : Cfg κ μ) (xs ys : List (κ × μ)) : Option (List (κ × μ)) :=
  if xs.length + ys.length ≤ C.mx then some (xs ++ ys) else none

/-- `ska_sort` of the elements from `start` on, by the key (`flat_map.cpp` 85, 137, 162). -/
def Cfg.sortFrom (C : Cfg κ μ) (xs : List (κ × μ)) (start : Nat) : Option (List (κ × μ)) := do
  let (m, _) ← skaSort C.std C.desc (memOf xs) start (xs.length - start)
  readBack m xs.length

/-- `unique_ska_sort` (`algorithms/sort/ska_sort.cpp` 41-51). -/
def Cfg.uniqueSkaSort (C : Cfg κ μ) (xs : List (κ × μ)) : Option (List (κ × μ)) := do
  let xs ← C.sortFrom xs 0
  let (m, position) ← unique C.mv (fun x y => C.eq x.1 y.1) (objs xs) 0 xs.length
  readBack (vals m) position

/-- `merge_sorted_and_unsorted` (`flat_map.cpp` 79-102). The temporary of `unique_inplace_merge` lives after the elements. -/
def Cfg.mergeSortedAndUnsorted (C : Cfg κ μ) (allowDuplicates : Bool) (xs : List (κ × μ)) (midpoint : Nat) : Option (List (κ × μ)) := do
  let xs ← C.sortFrom xs midpoint
  if allowDuplicates then do
    let m ← C.merge (memOf xs) 0 midpoint xs.length
    readBack m xs.length
  else do
    let (m, position) ← uniqueInplaceMerge C.mv C.elt xs.length (objs xs) 0 midpoint xs.length
    readBack (vals m) position

/-- The constructors from a range (`flat_map.cpp` 132-145, 169-184). -/
def Cfg.construct (C : Cfg κ μ) (allowDuplicates : Bool) (source : List (κ × μ)) : Option (List (κ × μ)) := do
  let xs ← C.append [] source
  if allowDuplicates then C.sortFrom xs 0 else C.uniqueSkaSort xs

/-- The constructors with `assume_sorted_unique` (`flat_map.cpp` 147-156, 186-197). -/
def Cfg.constructSortedUnique (C : Cfg κ μ) (source : List (κ × μ)) : Option (List (κ × μ)) := do
  let xs ← C.append [] source
  let b ← isSorted (memOf xs) C.elt 0 xs.length
  if b then some xs else none

/-- The constructors with `assume_unique` (`flat_map.cpp` 158-167, 199-210). -/
def Cfg.constructUnique (C : Cfg κ μ) (source : List (κ × μ)) : Option (List (κ × μ)) := do
  let xs ← C.append [] source
  C.sortFrom xs 0

/-- `keyed_lower_bound` (`keyed_binary_search.cpp` 17-23). -/
def Cfg.keyedLowerBound (C : Cfg κ μ) (xs : List (κ × μ)) (key : κ) : Option Nat :=
  lowerBound (memOf xs) (fun e k => C.lt e.1 k) 0 xs.length key

/-- `keyed_upper_bound` (`keyed_binary_search.cpp` 25-31). -/
def Cfg.keyedUpperBound (C : Cfg κ μ) (xs : List (κ × μ)) (key : κ) : Option Nat :=
  upperBound (memOf xs) (fun k e => C.lt k e.1) 0 xs.length key

/-- `keyed_equal_range` (`keyed_binary_search.cpp` 33-39). -/
def Cfg.keyedEqualRange (C : Cfg κ μ) (xs : List (κ × μ)) (key : κ) : Option (Nat × Nat) :=
  equalRange (memOf xs) (fun e k => C.lt e.1 k) (fun k e => C.lt k e.1) 0 xs.length key

/-- `find` (`flat_map.cpp` 320-327). -/
def Cfg.find (C : Cfg κ μ) (xs : List (κ × μ)) (key : κ) : Option Nat := do
  let it ← C.keyedLowerBound xs key
  if it = xs.length then some xs.length
  else do
    let e ← xs[it]?
    some (if C.lt key e.1 then xs.length else it)

/-- `lookup` (`lookup.cpp` 20-26): the mapped value, or nothing for the null pointer. -/
def Cfg.lookup (C : Cfg κ μ) (xs : List (κ × μ)) (key : κ) : Option (Option μ) := do
  let it ← C.find xs key
  if it ≠ xs.length then do
    let e ← xs[it]?
    some (some e.2)
  else some none

/-- `lazy_insert` of a map (`flat_map.cpp` 241-264): the contents, the position of the element and whether it was inserted. -/
def Cfg.lazyInsert (C : Cfg κ μ) (xs : List (κ × μ)) (key : κ) (mapped : μ) : Option (List (κ × μ) × Nat × Bool) := do
  let position ← C.keyedUpperBound xs key
  if position = 0 then do
    let ys ← C.insertAt xs position (key, mapped)
    some (ys, position, true)
  else do
    let before ← xs[position - 1]?
    if C.lt before.1 key then do
      let ys ← C.insertAt xs position (key, mapped)
      some (ys, position, true)
    else some (xs, position - 1, false)

/-- `lazy_insert` of a multimap (`flat_map.cpp` 241-252). -/
def Cfg.lazyInsertMulti (C : Cfg κ μ) (xs : List (κ × μ)) (key : κ) (mapped : μ) : Option (List (κ × μ) × Nat) := do
  let position ← C.keyedUpperBound xs key
  let ys ← C.insertAt xs position (key, mapped)
  some (ys, position)

/-- `insert` of a range (`flat_map.cpp` 266-273). -/
def Cfg.insertRange (C : Cfg κ μ) (allowDuplicates : Bool) (xs init : List (κ × μ)) : Option (List (κ × μ)) := do
  let originalSize := xs.length
  let xs ← C.append xs init
  C.mergeSortedAndUnsorted allowDuplicates xs originalSize

/-- `erase` of an iterator (`flat_map.cpp` 275-277). -/
def eraseAt (xs : List α) (i : Nat) : Option (List α) := if i < xs.length then some (xs.eraseIdx i) else none

/-- `erase` of a range (`flat_map.cpp` 278-280). -/
def eraseBetween (xs : List α) (i j : Nat) : Option (List α) := if i ≤ j ∧ j ≤ xs.length then some (xs.take i ++ xs.drop j) else none

/-- `erase_if` (`flat_map.cpp` 281-283). -/
def eraseIf (xs : List α) (p : α → Bool) : Option (List α) := some (xs.filter fun x => !p x)

/-- The loop of `upsert` (`flat_map.cpp` 335-343). `update` is what the function makes of the mapped value and the new one. -/
def Cfg.upsertLoop (C : Cfg κ μ) (update : μ → μ → μ) : List (κ × μ) → List (κ × μ) → Option (List (κ × μ))
  | xs, [] => some xs
  | xs, value :: other => do
    let it ← C.find xs value.1
    if it ≠ xs.length then do
      let e ← xs[it]?
      C.upsertLoop update (xs.set it (e.1, update e.2 value.2)) other
    else do
      let xs ← C.append xs [value]
      C.upsertLoop update xs other

/-- `upsert` (`flat_map.cpp` 329-346). -/
def Cfg.upsert (C : Cfg κ μ) (xs other : List (κ × μ)) (update : μ → μ → μ) : Option (List (κ × μ)) := do
  let originalSize := xs.length
  let xs ← C.upsertLoop update xs other
  C.mergeSortedAndUnsorted false xs originalSize

/-! ## Histories -/

/-- The operations of a map. Iterators are given by their position. -/
inductive Op (κ μ : Type)
  | insert (key : κ) (mapped : μ)
  | insertRange (init : List (κ × μ))
  | erase (i : Nat)
  | eraseRange (i j : Nat)
  | eraseIf (p : κ × μ → Bool)
  | upsert (other : List (κ × μ)) (update : μ → μ → μ)

/-- One operation of a flat map (`flat_map.cpp` 129-349). -/
def Cfg.step (C : Cfg κ μ) (xs : List (κ × μ)) : Op κ μ → Option (List (κ × μ))
  | .insert k v => (C.lazyInsert xs k v).map (·.1)
  | .insertRange init => C.insertRange false xs init
  | .erase i => eraseAt xs i
  | .eraseRange i j => eraseBetween xs i j
  | .eraseIf p => eraseIf xs p
  | .upsert other update => C.upsert xs other update

/-- A history of operations; nothing if one of them is undefined. -/
def Cfg.run (C : Cfg κ μ) : List (κ × μ) → List (Op κ μ) → Option (List (κ × μ))
  | xs, [] => some xs
  | xs, op :: ops => do
    let xs ← C.step xs op
    C.run xs ops

/-- The operations of a multimap. -/
inductive MultiOp (κ μ : Type)
  | insert (key : κ) (mapped : μ)
  | insertRange (init : List (κ × μ))
  | erase (i : Nat)
  | eraseRange (i j : Nat)
  | eraseIf (p : κ × μ → Bool)

/-- One operation of a flat multimap (`flat_map.cpp` 129-349). -/
def Cfg.multiStep (C : Cfg κ μ) (xs : List (κ × μ)) : MultiOp κ μ → Option (List (κ × μ))
  | .insert k v => (C.lazyInsertMulti xs k v).map (·.1)
  | .insertRange init => C.insertRange true xs init
  | .erase i => eraseAt xs i
  | .eraseRange i j => eraseBetween xs i j
  | .eraseIf p => eraseIf xs p

/-- A history of operations; nothing if one of them is undefined. -/
def Cfg.multiRun (C : Cfg κ μ) : List (κ × μ) → List (MultiOp κ μ) → Option (List (κ × μ))
  | xs, [] => some xs
  | xs, op :: ops => do
    let xs ← C.multiStep xs op
    C.multiRun xs ops

/-! ## Specification -/

/-- The keys are the same as far as the map is concerned. -/
def Cfg.Same (C : Cfg κ μ) (k k' : κ) : Prop := C.lt k k' = false ∧ C.lt k' k = false

/-- The contents of a map that has the elements `S`: exactly they, in the order of their keys, and no key twice. -/
structure Cfg.Lists (C : Cfg κ μ) (S : κ × μ → Prop) (xs : List (κ × μ)) : Prop where
  increasing : xs.Pairwise fun x y => C.lt x.1 y.1 = true
  mem : ∀ e, e ∈ xs ↔ S e

/-- What the operations of a mathematical map do. Of several elements of an inserted range with the same key any may be taken. -/
def Cfg.Spec (C : Cfg κ μ) (S S' : κ × μ → Prop) : Op κ μ → Prop
  | .insert k v => ∀ e, S' e ↔ S e ∨ e = (k, v) ∧ ∀ x, S x → ¬ C.Same x.1 k
  | .insertRange init => (∀ e, S e → S' e) ∧ (∀ e, S' e → S e ∨ e ∈ init ∧ ∀ x, S x → ¬ C.Same x.1 e.1) ∧
      (∀ e ∈ init, ∃ x, S' x ∧ C.Same x.1 e.1) ∧ ∀ x y, S' x → S' y → C.Same x.1 y.1 → x = y
  | .erase i => ∃ xs, C.Lists S xs ∧ ∃ x, xs[i]? = some x ∧ ∀ e, S' e ↔ S e ∧ e ≠ x
  | .eraseRange i j => ∃ xs, C.Lists S xs ∧ ∀ e, S' e ↔ S e ∧ e ∉ (xs.take j).drop i
  | .eraseIf p => ∀ e, S' e ↔ S e ∧ p e = false
  | .upsert other update => ∀ e, S' e ↔ (S e ∧ ∀ o ∈ other, ¬ C.Same e.1 o.1) ∨
      (∃ x o, S x ∧ o ∈ other ∧ C.Same x.1 o.1 ∧ e = (x.1, update x.2 o.2)) ∨ (e ∈ other ∧ ∀ x, S x → ¬ C.Same x.1 e.1)

/-- What a history may lead to. -/
def Cfg.SpecRun (C : Cfg κ μ) (S S' : κ × μ → Prop) : List (Op κ μ) → Prop
  | [] => S' = S
  | op :: ops => ∃ T, C.Spec S T op ∧ C.SpecRun T S' ops

end Verif.Maps
