import Verif.Algo.UniqueThrowsProps
import Verif.Maps.LinearMap

/-!
# Maps when something throws (C81)

`flat_map.cpp` and `linear_map.cpp` with everything that can throw: the comparisons, the allocation of memory, making and copying elements and the
function that `upsert` is given. The model is a tree of calls as in `Algo/Calls.lean`. At each call it says what the map
contains if that call throws: for each element its value, or `none` if it has been moved from. (That a throwing insertion into or append to the underlying container
leaves its contents as they were is C25 and C27.) Moving and assigning elements does not throw.
-/

namespace Verif.Maps

open Verif.Algo Verif.Algo.Mem Prog

variable {κ μ τ : Type}

/-- What can throw. Only the answers of comparisons matter. -/
inductive MapCall (κ μ : Type)
  | less (a b : κ)
  | equal (a b : κ)
  | alloc
  | make
  | copy (e : κ × μ)
  | update (old new : μ)

/-- The elements of a map. -/
abbrev Contents (κ μ : Type) := List (Option (κ × μ))

/-- Elements none of which has been moved from. -/
def full (xs : List (κ × μ)) : Contents κ μ := xs.map some

/-- A program that works on the contents of a map and calls functions that may throw. -/
abbrev MapProg (κ μ R : Type) := Prog (Contents κ μ) (MapCall κ μ) R

/-! ## Model: sorted maps -/

/-- `keyed_lower_bound` (`keyed_binary_search.cpp` 17-23). -/
def keyedLowerBoundA (xs : List (κ × μ)) (key : κ) : MapProg κ μ Nat := lowerBoundA (memOf xs) (fun e => call (full xs) (.less e.1 key)) 0 xs.length

/-- `keyed_upper_bound` (`keyed_binary_search.cpp` 25-31). -/
def keyedUpperBoundA (xs : List (κ × μ)) (key : κ) : MapProg κ μ Nat := upperBoundA (memOf xs) (fun e => call (full xs) (.less key e.1)) 0 xs.length

/-- `find` (`flat_map.cpp` 320-327). -/
def findA (xs : List (κ × μ)) (key : κ) : MapProg κ μ Nat := do
  let it ← keyedLowerBoundA xs key
  if it = xs.length then pure xs.length
  else do
    let e ← .lift xs[it]?
    let b ← call (full xs) (.less key e.1)
    pure (if b then xs.length else it)

/-- `lookup` (`lookup.cpp` 20-26), giving also the position. -/
def lookupA (xs : List (κ × μ)) (key : κ) : MapProg κ μ (Option (Nat × μ)) := do
  let it ← findA xs key
  if it ≠ xs.length then do
    let e ← .lift xs[it]?
    pure (some (it, e.2))
  else pure none

/-- Allocate memory if needed, while the container has the contents `s`. -/
def allocIf (needed : Prop) [Decidable needed] (s : Contents κ μ) : MapProg κ μ Unit :=
  if needed then do
    let _ ← call s .alloc
    pure ()
  else pure ()

/-- Inserting an element into the underlying container, whose capacity is `cap` (`insert.cpp` 41-88, 107-151). -/
def insertAtA (C : Cfg κ μ) (cap : Nat) (xs : List (κ × μ)) (position : Nat) (e : κ × μ) : MapProg κ μ (List (κ × μ)) :=
  allocIf (¬ xs.length + 1 ≤ cap) (full xs) >>= fun _ =>
  call (full xs) .make >>= fun _ =>
  .lift (C.insertAt xs position e)

/-- `lazy_insert` of a map (`flat_map.cpp` 241-264). -/
def lazyInsertA (C : Cfg κ μ) (cap : Nat) (xs : List (κ × μ)) (key : κ) (mapped : μ) : MapProg κ μ (List (κ × μ) × Nat × Bool) := do
  let position ← keyedUpperBoundA xs key
  if position = 0 then do
    let ys ← insertAtA C cap xs position (key, mapped)
    pure (ys, position, true)
  else do
    let before ← .lift xs[position - 1]?
    let b ← call (full xs) (.less before.1 key)
    if b then do
      let ys ← insertAtA C cap xs position (key, mapped)
      pure (ys, position, true)
    else pure (xs, position - 1, false)

/-- `lazy_insert` of a multimap (`flat_map.cpp` 241-252). -/
def lazyInsertMultiA (C : Cfg κ μ) (cap : Nat) (xs : List (κ × μ)) (key : κ) (mapped : μ) : MapProg κ μ (List (κ × μ) × Nat) := do
  let position ← keyedUpperBoundA xs key
  let ys ← insertAtA C cap xs position (key, mapped)
  pure (ys, position)

/-- Copying elements while the container has the contents `s`. -/
def copyAll (s : Contents κ μ) : List (κ × μ) → MapProg κ μ Unit
  | [] => pure ()
  | e :: es => do
    let _ ← call s (.copy e)
    copyAll s es

/-- `push_back` of a copy (`push_back.cpp` 22-32, `lazy_push_back.cpp` 37-80). -/
def pushBackA (cap mx : Nat) (xs : List (κ × μ)) (e : κ × μ) : MapProg κ μ (List (κ × μ)) := do
  allocIf (cap ≤ xs.length) (full xs)
  let _ ← call (full xs) (.copy e)
  .lift (if xs.length + 1 ≤ mx then some (xs ++ [e]) else none)

/-- The elements of a range that does not know its size are added one after the other (`append.cpp` 76-84). After growing, the capacity is
one of those that `grow` gives. -/
def pushAllA (grow : Nat → Nat) (cap mx : Nat) : List (κ × μ) → List (κ × μ) → MapProg κ μ (List (κ × μ))
  | xs, [] => pure xs
  | xs, e :: es => do
    let ys ← pushBackA cap mx xs e
    pushAllA grow (if cap ≤ xs.length then grow cap else cap) mx ys es

/-- `containers::append(m_container, range)` (`append.cpp` 38-84). -/
def appendA (sized : Bool) (grow : Nat → Nat) (cap mx : Nat) (xs init : List (κ × μ)) : MapProg κ μ (List (κ × μ)) :=
  if sized then do
    allocIf (¬ xs.length + init.length ≤ cap) (full xs)
    copyAll (full xs) init
    .lift (if xs.length + init.length ≤ mx then some (xs ++ init) else none)
  else pushAllA grow cap mx xs init

/-- A `ska_sort` of the elements from the given position on. -/
abbrev Sorter (κ μ : Type) := List (κ × μ) → Nat → MapProg κ μ (List (κ × μ))

/-- What is in the first `n` places. -/
def readObjs {α : Type} (n : Nat) (m : Mem (Obj α)) : List (Option α) := (List.range n).map (vals m)

/-- `merge_sorted_and_unsorted` of a map (`flat_map.cpp` 79-102). -/
def mergeSortedAndUnsortedA (C : Cfg κ μ) (sort : Sorter κ μ) (xs : List (κ × μ)) (midpoint : Nat) : MapProg κ μ (List (κ × μ)) := do
  let xs ← sort xs midpoint
  let r ← Prog.unwinding (readObjs xs.length) (uniqueInplaceMergeA C.mv (fun m a b => call m (.less a.1 b.1)) .alloc xs.length (objs xs) 0 midpoint xs.length)
  .lift (readBack (vals r.1) r.2)

/-- `insert` of a range (`flat_map.cpp` 266-273). -/
def insertRangeA (C : Cfg κ μ) (sort : Sorter κ μ) (sized : Bool) (grow : Nat → Nat) (cap : Nat) (xs init : List (κ × μ)) : MapProg κ μ (List (κ × μ)) := do
  let ys ← appendA sized grow cap C.mx xs init
  mergeSortedAndUnsortedA C sort ys xs.length

/-- The loop of `upsert` (`flat_map.cpp` 335-343). What `update` leaves in the mapped value if it throws is `broken`. -/
def upsertLoopA (C : Cfg κ μ) (update broken : μ → μ → μ) (grow : Nat → Nat) : Nat → List (κ × μ) → List (κ × μ) → MapProg κ μ (List (κ × μ))
  | _, xs, [] => pure xs
  | cap, xs, value :: other => do
    let p ← lookupA xs value.1
    match p with
    | some (it, old) => do
      let e ← .lift xs[it]?
      let _ ← call (full (xs.set it (e.1, broken old value.2))) (.update old value.2)
      upsertLoopA C update broken grow cap (xs.set it (e.1, update old value.2)) other
    | none => do
      let ys ← pushBackA cap C.mx xs value
      upsertLoopA C update broken grow (if cap ≤ xs.length then grow cap else cap) ys other

/-- `upsert` (`flat_map.cpp` 329-346). -/
def upsertA (C : Cfg κ μ) (sort : Sorter κ μ) (update broken : μ → μ → μ) (grow : Nat → Nat) (cap : Nat) (xs other : List (κ × μ)) : MapProg κ μ (List (κ × μ)) := do
  let ys ← upsertLoopA C update broken grow cap xs other
  mergeSortedAndUnsortedA C sort ys xs.length

/-! ## Model: unsorted maps -/

/-- `find` (`linear_map.cpp` 136-142). -/
def linFindA (xs : List (κ × μ)) (key : κ) : MapProg κ μ Nat := findIfA (memOf xs) (fun value => call (full xs) (.equal key value.1)) 0 xs.length

/-- `lazy_insert` (`linear_map.cpp` 145-155, `lazy_push_back.cpp` 37-80). -/
def linLazyInsertA (L : Lin κ) (cap : Nat) (xs : List (κ × μ)) (key : κ) (mapped : μ) : MapProg κ μ (List (κ × μ) × Nat × Bool) := do
  let it ← linFindA xs key
  if it ≠ xs.length then pure (xs, it, false)
  else do
    allocIf (cap ≤ xs.length) (full xs)
    let _ ← call (full xs) .make
    if xs.length + 1 ≤ L.mx then
      let ys := xs ++ [(key, mapped)]
      pure (ys, ys.length - 1, true)
    else .lift none

/-- The contents of a container of size `n` all of whose elements have values. -/
def readAll {α : Type} (n : Nat) (m : Mem α) : List (Option α) := (List.range n).map m

/-- The loop of `remove_duplicates` (`linear_map.cpp` 177-191) in a container of size `size`, `n` being the distance from `starting_from` to
`to_remove`. -/
def removeLoopA (size first : Nat) : Nat → Mem (κ × μ) → Nat → MapProg κ μ (Mem (κ × μ) × Nat)
  | 0, m, startingFrom => pure (m, startingFrom)
  | n + 1, m, startingFrom => do
    let value ← .lift (m startingFrom)
    let found ← anyA m (fun verified => call (readAll size m) (.equal value.1 verified.1)) first startingFrom
    if found then
      let toRemove := startingFrom + (n + 1) - 1
      if startingFrom = toRemove then pure (m, toRemove)
      else do
        let m ← .lift (m.swapAt startingFrom toRemove)
        removeLoopA size first n m startingFrom
    else removeLoopA size first n m (startingFrom + 1)

/-- `remove_duplicates` (`linear_map.cpp` 174-193). -/
def removeDuplicatesA (xs : List (κ × μ)) (startingFrom : Nat) : MapProg κ μ (List (κ × μ)) := do
  let r ← removeLoopA xs.length 0 (xs.length - startingFrom) (memOf xs) startingFrom
  .lift (readBack r.1 r.2)

/-- `insert(range)` (`linear_map.cpp` 159-165). -/
def linInsertRangeA (L : Lin κ) (sized : Bool) (grow : Nat → Nat) (cap : Nat) (xs init : List (κ × μ)) : MapProg κ μ (List (κ × μ)) := do
  let ys ← appendA sized grow cap L.mx xs init
  removeDuplicatesA ys xs.length

/-! ## If nothing throws, this is the model of C33 and C35 -/

/-- The answers of the comparisons. -/
def answers (C : Cfg κ μ) (L : Lin κ) : MapCall κ μ → Bool
  | .less a b => C.lt a b
  | .equal a b => L.eq a b
  | _ => true

section Run

variable {C : Cfg κ μ} {L : Lin κ}

theorem keyedLowerBoundA_run (xs : List (κ × μ)) (key : κ) : (keyedLowerBoundA xs key).run (answers C L) = C.keyedLowerBound xs key :=
  partitionPointA_run (g := fun e : κ × μ => C.lt e.1 key) (fun _ => rfl) 0 xs.length

theorem keyedUpperBoundA_run (xs : List (κ × μ)) (key : κ) : (keyedUpperBoundA xs key).run (answers C L) = C.keyedUpperBound xs key :=
  partitionPointA_run (notFn_run (g := fun e : κ × μ => C.lt key e.1) fun _ => rfl) 0 xs.length

theorem findA_run (xs : List (κ × μ)) (key : κ) : (findA xs key).run (answers C L) = C.find xs key := by
  simp [findA, Cfg.find, keyedLowerBoundA_run, run_ite, answers]

theorem lookupA_run (xs : List (κ × μ)) (key : κ) : ((lookupA xs key).run (answers C L)).map (·.map (·.2)) = C.lookup xs key := by
  simp only [lookupA, Cfg.lookup, run_bind, findA_run (L := L), run_ite, Option.bind_eq_bind]
  cases C.find xs key with
  | none => rfl
  | some it =>
    simp only [Option.bind_some]
    split
    · simp only [run_bind, run_lift]
      cases xs[it]? <;> rfl
    · rfl

theorem allocIf_run (f : MapCall κ μ → Bool) (c : Prop) [Decidable c] (s : Contents κ μ) : (allocIf c s).run f = some () := by
  rw [allocIf]; split <;> rfl

theorem insertAtA_run (cap : Nat) (xs : List (κ × μ)) (position : Nat) (e : κ × μ) :
    (insertAtA C cap xs position e).run (answers C L) = C.insertAt xs position e := by
  simp [insertAtA, allocIf_run]

theorem lazyInsertA_run (cap : Nat) (xs : List (κ × μ)) (key : κ) (mapped : μ) :
    (lazyInsertA C cap xs key mapped).run (answers C L) = C.lazyInsert xs key mapped := by
  simp [lazyInsertA, Cfg.lazyInsert, keyedUpperBoundA_run (C := C) (L := L), insertAtA_run, run_ite, answers]

theorem lazyInsertMultiA_run (cap : Nat) (xs : List (κ × μ)) (key : κ) (mapped : μ) :
    (lazyInsertMultiA C cap xs key mapped).run (answers C L) = C.lazyInsertMulti xs key mapped := by
  simp [lazyInsertMultiA, Cfg.lazyInsertMulti, keyedUpperBoundA_run (C := C) (L := L), insertAtA_run]

theorem copyAll_run (s : Contents κ μ) (f : MapCall κ μ → Bool) : ∀ es, (copyAll s es).run f = some ()
  | [] => rfl
  | e :: es => by simp [copyAll, copyAll_run s f es]

theorem pushBackA_run (f : MapCall κ μ → Bool) (cap mx : Nat) (xs : List (κ × μ)) (e : κ × μ) :
    (pushBackA cap mx xs e).run f = if xs.length + 1 ≤ mx then some (xs ++ [e]) else none := by
  simp [pushBackA, allocIf_run]

theorem pushAllA_run (f : MapCall κ μ → Bool) (grow : Nat → Nat) (mx : Nat) : ∀ (es : List (κ × μ)) (cap : Nat) (xs : List (κ × μ)), xs.length ≤ mx →
    (pushAllA grow cap mx xs es).run f = if xs.length + es.length ≤ mx then some (xs ++ es) else none
  | [], cap, xs, h => by simp [pushAllA, h]
  | e :: es, cap, xs, h => by
    simp only [pushAllA, run_bind, pushBackA_run]
    split
    · rw [Option.bind_some, pushAllA_run f grow mx es _ _ (by simp; omega)]
      simp only [List.length_append, List.length_cons, List.length_nil, List.append_assoc, List.singleton_append]
      simp only [show xs.length + (0 + 1) + es.length = xs.length + (es.length + 1) by omega]
    · rw [if_neg (show ¬ xs.length + (e :: es).length ≤ mx by rw [List.length_cons]; omega)]; rfl

theorem appendA_run (f : MapCall κ μ → Bool) (sized : Bool) (grow : Nat → Nat) (cap mx : Nat) (xs init : List (κ × μ)) (h : xs.length ≤ mx) :
    (appendA sized grow cap mx xs init).run f = if xs.length + init.length ≤ mx then some (xs ++ init) else none := by
  cases sized with
  | true =>
    rw [appendA, if_pos rfl]
    simp only [run_bind, allocIf_run, Option.bind_some, copyAll_run, run_lift]
  | false => exact pushAllA_run f grow mx init cap xs h

theorem mergeSortedAndUnsortedA_run {sort : Sorter κ μ} (hs : ∀ xs start, (sort xs start).run (answers C L) = C.sortFrom xs start) (xs : List (κ × μ)) (midpoint : Nat) :
    (mergeSortedAndUnsortedA C sort xs midpoint).run (answers C L) = C.mergeSortedAndUnsorted false xs midpoint := by
  simp only [mergeSortedAndUnsortedA, Cfg.mergeSortedAndUnsorted, run_bind, run_unwinding, run_lift, hs, Option.bind_eq_bind, Bool.false_eq_true, if_false]
  congr 1; funext ys
  rw [uniqueInplaceMergeA_run (lt := C.elt) (fun _ _ _ => rfl) (Nat.le_refl _)]

theorem insertRangeA_run {sort : Sorter κ μ} (hs : ∀ xs start, (sort xs start).run (answers C L) = C.sortFrom xs start) (sized : Bool) (grow : Nat → Nat) (cap : Nat)
    (xs init : List (κ × μ)) (h : xs.length ≤ C.mx) :
    (insertRangeA C sort sized grow cap xs init).run (answers C L) = C.insertRange false xs init := by
  simp only [insertRangeA, Cfg.insertRange, run_bind, appendA_run _ _ _ _ _ _ _ h, Cfg.append, mergeSortedAndUnsortedA_run hs, Option.bind_eq_bind]

theorem upsertLoopA_run (update broken : μ → μ → μ) (grow : Nat → Nat) : ∀ (other : List (κ × μ)) (cap : Nat) (xs : List (κ × μ)),
    (upsertLoopA C update broken grow cap xs other).run (answers C L) = C.upsertLoop update xs other
  | [], _, _ => rfl
  | value :: other, cap, xs => by
    simp only [upsertLoopA, Cfg.upsertLoop, lookupA, run_bind, findA_run (L := L), Option.bind_eq_bind]
    cases C.find xs value.1 with
    | none => rfl
    | some it =>
      simp only [Option.bind_some, run_ite]
      split
      · simp only [run_bind, run_lift]
        cases e : xs[it]? with
        | none => rfl
        | some x =>
          simp only [Option.bind_some, run_pure, run_bind, run_lift, e, run_call]
          exact upsertLoopA_run update broken grow other _ _
      · simp only [run_pure, Option.bind_some, run_bind, pushBackA_run, Cfg.append, List.length_singleton]
        split
        · exact upsertLoopA_run update broken grow other _ _
        · rfl

theorem upsertA_run {sort : Sorter κ μ} (hs : ∀ xs start, (sort xs start).run (answers C L) = C.sortFrom xs start) (update broken : μ → μ → μ) (grow : Nat → Nat) (cap : Nat)
    (xs other : List (κ × μ)) : (upsertA C sort update broken grow cap xs other).run (answers C L) = C.upsert xs other update := by
  simp only [upsertA, Cfg.upsert, run_bind, upsertLoopA_run (L := L), mergeSortedAndUnsortedA_run hs, Option.bind_eq_bind]

theorem linFindA_run (xs : List (κ × μ)) (key : κ) : (linFindA xs key).run (answers C L) = L.find xs key :=
  findIfA_run (g := fun e : κ × μ => L.eq key e.1) (fun _ => rfl) 0 xs.length

theorem linLazyInsertA_run (cap : Nat) (xs : List (κ × μ)) (key : κ) (mapped : μ) :
    (linLazyInsertA L cap xs key mapped).run (answers C L) = L.lazyInsert xs key mapped := by
  simp only [linLazyInsertA, Lin.lazyInsert, run_bind, linFindA_run (C := C) (L := L), Option.bind_eq_bind]
  congr 1; funext it
  rw [run_ite]
  split
  · rfl
  · simp only [run_bind, allocIf_run, run_ite, run_call, Option.bind_some, run_lift, run_pure]

theorem removeLoopA_run (size first : Nat) : ∀ (n : Nat) (m : Mem (κ × μ)) (s : Nat), (removeLoopA size first n m s).run (answers C L) = L.removeLoop first n m s
  | 0, _, _ => rfl
  | n + 1, m, s => by
    simp only [removeLoopA, Lin.removeLoop, run_bind, run_lift, run_ite, run_pure, Option.bind_eq_bind, removeLoopA_run size first n]
    congr 1; funext value
    rw [anyA_run (g := fun e : κ × μ => L.eq value.1 e.1) fun _ => rfl]

theorem removeDuplicatesA_run (xs : List (κ × μ)) (s : Nat) : (removeDuplicatesA xs s).run (answers C L) = L.removeDuplicates xs s := by
  simp only [removeDuplicatesA, Lin.removeDuplicates, run_bind, run_lift, removeLoopA_run, Option.bind_eq_bind]

theorem linInsertRangeA_run (sized : Bool) (grow : Nat → Nat) (cap : Nat) (xs init : List (κ × μ)) (h : xs.length ≤ L.mx) :
    (linInsertRangeA L sized grow cap xs init).run (answers C L) = L.insertRange xs init := by
  simp only [linInsertRangeA, Lin.insertRange, run_bind, appendA_run _ _ _ _ _ _ _ h]
  split
  · rw [Option.bind_some, removeDuplicatesA_run]
  · rfl

end Run

/-! ## Operations that do nothing if something throws -/

/-- If an exception ended the operation, the contents are as they were. -/
def Unchanged {R : Type} (xs : List (κ × μ)) (e : Ask.Ending (Contents κ μ) R) : Prop := ∀ s, e = .threw s → s = full xs

section Strong

variable {P : Contents κ μ → Prop}

theorem partitionPointA_keeps {α S Q : Type} {P : S → Prop} {m : Mem α} {p : α → Prog S Q Bool} (hp : ∀ v n, Fine false P (fun _ _ => True) n (p v)) (first last n : Nat) :
    Fine false P (fun _ _ => True) n (partitionPointA m p first last) := by
  have loop : ∀ (count first n : Nat), Fine false P (fun _ _ => True) n (partitionPointLoopA m p first count) := by
    intro count
    induction count using Nat.strongRecOn with
    | _ count ih =>
      intro first n
      rw [partitionPointLoopA]
      split
      · exact Fine.pure trivial
      · refine fine_get fun v _ => fine_cmp (hp v) fun n b => ?_
        split
        · exact ih _ (by omega) _ _
        · exact ih _ (by omega) _ _
  rw [partitionPointA]
  split
  · exact loop _ _ _
  · exact Fine.lift (fun h => by cases h) (fun _ _ => trivial)

theorem fine_notFn {α S Q : Type} {P : S → Prop} {p : α → Prog S Q Bool} (hp : ∀ v n, Fine false P (fun _ _ => True) n (p v)) (v : α) (n : Nat) :
    Fine false P (fun _ _ => True) n (notFn p v) := fine_cmp (hp v) fun _ _ => Fine.pure trivial

theorem fine_call {S Q : Type} {P : S → Prop} {s : S} (hs : P s) (q : Q) (n : Nat) : Fine false P (fun _ _ => True) n (call s q) := Fine.call hs fun _ => trivial

theorem fine_then {S Q R R' : Type} {P : S → Prop} {a : Prog S Q R} {g : R → Prog S Q R'} {post : Nat → R' → Prop} {n : Nat} (ha : Fine false P (fun _ _ => True) n a)
    (H : ∀ k r, Fine false P post k (g r)) : Fine false P post n (a >>= g : Prog S Q R') := Fine.seq (Fine.mono (fun _ a => a) (fun k r _ => H k r) ha)

theorem keyedLowerBoundA_keeps {xs : List (κ × μ)} (hs : P (full xs)) (key : κ) (n : Nat) : Fine false P (fun _ _ => True) n (keyedLowerBoundA xs key) :=
  partitionPointA_keeps (m := memOf xs) (p := fun e : κ × μ => call (full xs) (MapCall.less e.1 key)) (fun _ n => fine_call hs _ n) 0 xs.length n

theorem keyedUpperBoundA_keeps {xs : List (κ × μ)} (hs : P (full xs)) (key : κ) (n : Nat) : Fine false P (fun _ _ => True) n (keyedUpperBoundA xs key) :=
  partitionPointA_keeps (m := memOf xs) (fine_notFn (p := fun e : κ × μ => call (full xs) (MapCall.less key e.1)) fun _ n => fine_call hs _ n) 0 xs.length n

theorem findA_keeps {xs : List (κ × μ)} (hs : P (full xs)) (key : κ) (n : Nat) : Fine false P (fun _ _ => True) n (findA xs key) := by
  refine fine_then (keyedLowerBoundA_keeps hs key n) fun k it => ?_
  split
  · exact Fine.pure trivial
  · exact fine_get fun e _ => fine_then (fine_call hs _ _) fun _ _ => Fine.pure trivial

theorem lookupA_keeps {xs : List (κ × μ)} (hs : P (full xs)) (key : κ) (n : Nat) : Fine false P (fun _ _ => True) n (lookupA xs key) := by
  refine fine_then (findA_keeps hs key n) fun k it => ?_
  split
  · exact fine_get fun _ _ => Fine.pure trivial
  · exact Fine.pure trivial

theorem fine_end {S Q R : Type} {P : S → Prop} (x : Option R) (n : Nat) : Fine (Q := Q) false P (fun _ _ => True) n (Prog.lift x) :=
  Fine.lift (fun h => by cases h) (fun _ _ => trivial)

theorem allocIf_keeps {s : Contents κ μ} (hs : P s) (c : Prop) [Decidable c] (n : Nat) : Fine false P (fun _ _ => True) n (allocIf c s) := by
  rw [allocIf]
  split
  · exact fine_then (fine_call hs _ _) fun _ _ => Fine.pure trivial
  · exact Fine.pure trivial

theorem insertAtA_keeps {C : Cfg κ μ} {cap : Nat} {xs : List (κ × μ)} (hs : P (full xs)) (i : Nat) (e : κ × μ) (n : Nat) :
    Fine false P (fun _ _ => True) n (insertAtA C cap xs i e) :=
  fine_then (allocIf_keeps hs _ _) fun _ _ => fine_then (fine_call hs _ _) fun _ _ => fine_end _ _

theorem lazyInsertA_keeps {C : Cfg κ μ} {cap : Nat} {xs : List (κ × μ)} (hs : P (full xs)) (key : κ) (mapped : μ) (n : Nat) :
    Fine false P (fun _ _ => True) n (lazyInsertA C cap xs key mapped) := by
  refine fine_then (keyedUpperBoundA_keeps hs key n) fun k it => ?_
  split
  · exact fine_then (insertAtA_keeps hs _ _ _) fun _ _ => Fine.pure trivial
  · refine fine_get fun _ _ => fine_then (fine_call hs _ _) fun _ b => ?_
    split
    · exact fine_then (insertAtA_keeps hs _ _ _) fun _ _ => Fine.pure trivial
    · exact Fine.pure trivial

theorem copyAll_keeps {s : Contents κ μ} (hs : P s) : ∀ (es : List (κ × μ)) (n : Nat), Fine false P (fun _ _ => True) n (copyAll s es)
  | [], _ => Fine.pure trivial
  | _ :: es, _ => fine_then (fine_call hs _ _) fun _ _ => copyAll_keeps hs es _

theorem pushBackA_keeps {cap mx : Nat} {xs : List (κ × μ)} (hs : P (full xs)) (e : κ × μ) (n : Nat) :
    Fine false P (fun _ ys => ys = xs ++ [e]) n (pushBackA cap mx xs e) := by
  refine fine_then (allocIf_keeps hs _ _) fun _ _ => fine_then (fine_call hs _ _) fun _ _ => Fine.lift (fun h => by cases h) fun r h => ?_
  split at h
  · simpa using h.symm
  · cases h

theorem linFindA_keeps {xs : List (κ × μ)} (hs : P (full xs)) (key : κ) (n : Nat) : Fine false P (fun _ _ => True) n (linFindA xs key) :=
  Fine.mono (fun _ a => a) (fun _ _ _ => trivial) (findIfA_within (fun _ n => fine_call hs _ n) n)

theorem linLazyInsertA_keeps {L : Lin κ} {cap : Nat} {xs : List (κ × μ)} (hs : P (full xs)) (key : κ) (mapped : μ) (n : Nat) :
    Fine false P (fun _ _ => True) n (linLazyInsertA L cap xs key mapped) := by
  refine fine_then (linFindA_keeps hs key n) fun k it => ?_
  split
  · exact Fine.pure trivial
  · refine fine_then (allocIf_keeps hs _ _) fun _ _ => fine_then (fine_call hs _ _) fun _ _ => ?_
    split
    · exact Fine.pure trivial
    · exact fine_end _ _

theorem unchanged_of_fine {R : Type} {xs : List (κ × μ)} {a : MapProg κ μ R} (h : Fine false (fun s => s = full xs) (fun _ _ => True) 0 a) (f : τ → MapCall κ μ → Option (Bool × τ))
    (t : τ) : Unchanged xs (Ask.exec f t a).1 := by
  intro s hs
  have := Fine.exec (f := f) (t := t) h
  simp only [Outcome, Ask.Ends, hs] at this
  exact this

end Strong

/-- `find` in a sorted map never changes it, whatever throws. -/
theorem C81_flat_find (xs : List (κ × μ)) (key : κ) (f : τ → MapCall κ μ → Option (Bool × τ)) (t : τ) : Unchanged xs (Ask.exec f t (findA xs key)).1 :=
  unchanged_of_fine (findA_keeps (P := fun s => s = full xs) rfl key 0) f t

/-- `lookup` in a sorted map. -/
theorem C81_flat_lookup (xs : List (κ × μ)) (key : κ) (f : τ → MapCall κ μ → Option (Bool × τ)) (t : τ) : Unchanged xs (Ask.exec f t (lookupA xs key)).1 :=
  unchanged_of_fine (lookupA_keeps (P := fun s => s = full xs) rfl key 0) f t

/-- Inserting one element into a sorted map: if a comparison, the allocation or the construction of the element throws, the map is as it was. -/
theorem C81_flat_insert (C : Cfg κ μ) (cap : Nat) (xs : List (κ × μ)) (key : κ) (mapped : μ) (f : τ → MapCall κ μ → Option (Bool × τ)) (t : τ) :
    Unchanged xs (Ask.exec f t (lazyInsertA C cap xs key mapped)).1 := unchanged_of_fine (lazyInsertA_keeps (P := fun s => s = full xs) rfl key mapped 0) f t

/-- Inserting one element into a multimap. -/
theorem C81_multi_insert (C : Cfg κ μ) (cap : Nat) (xs : List (κ × μ)) (key : κ) (mapped : μ) (f : τ → MapCall κ μ → Option (Bool × τ)) (t : τ) :
    Unchanged xs (Ask.exec f t (lazyInsertMultiA C cap xs key mapped)).1 :=
  unchanged_of_fine (fine_then (keyedUpperBoundA_keeps (P := fun s => s = full xs) rfl key 0) fun _ _ => fine_then (insertAtA_keeps (P := fun s => s = full xs) rfl _ _ _) fun _ _ => Fine.pure trivial) f t

/-- `find` in an unsorted map. -/
theorem C81_linear_find (xs : List (κ × μ)) (key : κ) (f : τ → MapCall κ μ → Option (Bool × τ)) (t : τ) : Unchanged xs (Ask.exec f t (linFindA xs key)).1 :=
  unchanged_of_fine (linFindA_keeps (P := fun s => s = full xs) rfl key 0) f t

/-- Inserting one element into an unsorted map. -/
theorem C81_linear_insert (L : Lin κ) (cap : Nat) (xs : List (κ × μ)) (key : κ) (mapped : μ) (f : τ → MapCall κ μ → Option (Bool × τ)) (t : τ) :
    Unchanged xs (Ask.exec f t (linLazyInsertA L cap xs key mapped)).1 := unchanged_of_fine (linLazyInsertA_keeps (P := fun s => s = full xs) rfl key mapped 0) f t

/-- If nothing throws, the operations do what C33 and C35 say. -/
theorem C81_returns {C : Cfg κ μ} {L : Lin κ} {g : τ → MapCall κ μ → Option (Bool × τ)} (hg : Honest (answers C L) g) {t : τ} (cap : Nat) (xs : List (κ × μ)) (key : κ)
    (mapped : μ) :
    (∀ r c, Ask.exec g t (findA xs key) = (.returned r, c) → r = C.find xs key) ∧
    (∀ r c, Ask.exec g t (lazyInsertA C cap xs key mapped) = (.returned r, c) → r = C.lazyInsert xs key mapped) ∧
    (∀ r c, Ask.exec g t (lazyInsertMultiA C cap xs key mapped) = (.returned r, c) → r = C.lazyInsertMulti xs key mapped) ∧
    (∀ r c, Ask.exec g t (linFindA xs key) = (.returned r, c) → r = L.find xs key) ∧
    (∀ r c, Ask.exec g t (linLazyInsertA L cap xs key mapped) = (.returned r, c) → r = L.lazyInsert xs key mapped) :=
  ⟨fun _ _ h => (Ask.exec_honest hg h).1.trans (findA_run xs key), fun _ _ h => (Ask.exec_honest hg h).1.trans (lazyInsertA_run cap xs key mapped),
    fun _ _ h => (Ask.exec_honest hg h).1.trans (lazyInsertMultiA_run cap xs key mapped), fun _ _ h => (Ask.exec_honest hg h).1.trans (linFindA_run xs key),
    fun _ _ h => (Ask.exec_honest hg h).1.trans (linLazyInsertA_run cap xs key mapped)⟩

/-- The same for ranges. -/
theorem C81_returns_ranges {C : Cfg κ μ} {L : Lin κ} {g : τ → MapCall κ μ → Option (Bool × τ)} (hg : Honest (answers C L) g) {t : τ} {sort : Sorter κ μ}
    (hs : ∀ xs start, (sort xs start).run (answers C L) = C.sortFrom xs start) (update broken : μ → μ → μ) (sized : Bool) (grow : Nat → Nat) (cap : Nat) (xs other : List (κ × μ)) :
    (∀ r c, xs.length ≤ C.mx → Ask.exec g t (insertRangeA C sort sized grow cap xs other) = (.returned r, c) → r = C.insertRange false xs other) ∧
    (∀ r c, Ask.exec g t (upsertA C sort update broken grow cap xs other) = (.returned r, c) → r = C.upsert xs other update) ∧
    (∀ r c, xs.length ≤ L.mx → Ask.exec g t (linInsertRangeA L sized grow cap xs other) = (.returned r, c) → r = L.insertRange xs other) :=
  ⟨fun _ _ h e => (Ask.exec_honest hg e).1.trans (insertRangeA_run hs sized grow cap xs other h),
    fun _ _ e => (Ask.exec_honest hg e).1.trans (upsertA_run hs update broken grow cap xs other),
    fun _ _ h e => (Ask.exec_honest hg e).1.trans (linInsertRangeA_run (C := C) sized grow cap xs other h)⟩

/-! ## Allocations -/

/-- At most `n` allocations, and then `post` of how many are left and the result. -/
def AllocsWithin {R : Type} (post : Nat → R → Prop) : Nat → MapProg κ μ R → Prop
  | _, .done none => True
  | n, .done (some r) => post n r
  | n, .ask _ .alloc k => ∃ m, n = m + 1 ∧ ∀ b, AllocsWithin post m (k b)
  | n, .ask _ _ k => ∀ b, AllocsWithin post n (k b)

theorem AllocsWithin.mono {R : Type} {post post' : Nat → R → Prop} (hp : ∀ n r, post n r → post' n r) : ∀ {a : MapProg κ μ R} {n : Nat}, AllocsWithin post n a → AllocsWithin post' n a
  | .done none, _, _ => trivial
  | .done (some _), _, H => hp _ _ H
  | .ask _ .alloc _, _, ⟨m, h, H⟩ => ⟨m, h, fun b => AllocsWithin.mono hp (H b)⟩
  | .ask _ (.less _ _) _, _, H => fun b => AllocsWithin.mono hp (H b)
  | .ask _ (.equal _ _) _, _, H => fun b => AllocsWithin.mono hp (H b)
  | .ask _ .make _, _, H => fun b => AllocsWithin.mono hp (H b)
  | .ask _ (.copy _) _, _, H => fun b => AllocsWithin.mono hp (H b)
  | .ask _ (.update _ _) _, _, H => fun b => AllocsWithin.mono hp (H b)

theorem AllocsWithin.seq {R R' : Type} {post : Nat → R' → Prop} {g : R → MapProg κ μ R'} : ∀ {a : MapProg κ μ R} {n : Nat}, AllocsWithin (fun n r => AllocsWithin post n (g r)) n a →
    AllocsWithin post n (a >>= g : MapProg κ μ R')
  | .done none, _, _ => trivial
  | .done (some _), _, H => H
  | .ask _ .alloc _, _, ⟨m, h, H⟩ => ⟨m, h, fun b => AllocsWithin.seq (H b)⟩
  | .ask _ (.less _ _) _, _, H => fun b => AllocsWithin.seq (H b)
  | .ask _ (.equal _ _) _, _, H => fun b => AllocsWithin.seq (H b)
  | .ask _ .make _, _, H => fun b => AllocsWithin.seq (H b)
  | .ask _ (.copy _) _, _, H => fun b => AllocsWithin.seq (H b)
  | .ask _ (.update _ _) _, _, H => fun b => AllocsWithin.seq (H b)

/-- The number of allocations in a list of calls. -/
def allocCount (c : List (MapCall κ μ × Bool)) : Nat := (c.filter fun q => match q.1 with | .alloc => true | _ => false).length

theorem AllocsWithin.count {R : Type} {post : Nat → R → Prop} (g : τ → MapCall κ μ → Option (Bool × τ)) : ∀ {a : MapProg κ μ R} {n : Nat} {t : τ}, AllocsWithin post n a →
    allocCount (Ask.exec g t a).2 ≤ n
  | .done none, _, _, _ => Nat.zero_le _
  | .done (some _), _, _, _ => Nat.zero_le _
  | .ask _ .alloc _, _, t, ⟨m, h, H⟩ => by
    unfold Ask.exec
    cases g t .alloc with
    | none => exact Nat.zero_le _
    | some x => have := AllocsWithin.count g (t := x.2) (H x.1); simp only [allocCount, List.filter_cons, if_true, List.length_cons] at this ⊢; omega
  | .ask _ (.less a b) _, _, t, H => by
    unfold Ask.exec
    cases g t (.less a b) with
    | none => exact Nat.zero_le _
    | some x => simpa [allocCount] using AllocsWithin.count g (t := x.2) (H x.1)
  | .ask _ (.equal a b) _, _, t, H => by
    unfold Ask.exec
    cases g t (.equal a b) with
    | none => exact Nat.zero_le _
    | some x => simpa [allocCount] using AllocsWithin.count g (t := x.2) (H x.1)
  | .ask _ .make _, _, t, H => by
    unfold Ask.exec
    cases g t .make with
    | none => exact Nat.zero_le _
    | some x => simpa [allocCount] using AllocsWithin.count g (t := x.2) (H x.1)
  | .ask _ (.copy e) _, _, t, H => by
    unfold Ask.exec
    cases g t (.copy e) with
    | none => exact Nat.zero_le _
    | some x => simpa [allocCount] using AllocsWithin.count g (t := x.2) (H x.1)
  | .ask _ (.update a b) _, _, t, H => by
    unfold Ask.exec
    cases g t (.update a b) with
    | none => exact Nat.zero_le _
    | some x => simpa [allocCount] using AllocsWithin.count g (t := x.2) (H x.1)

theorem lookupA_grows (xs : List (κ × μ)) (key : κ) (n : Nat) : AllocsWithin (fun m r => m = n ∧ ∀ x, r = some x → x.1 < xs.length) n (lookupA xs key) := by
  have hf : AllocsWithin (fun m _ => m = n) n (findA xs key) := by
    have loop : ∀ (count first : Nat), AllocsWithin (fun m _ => m = n) n (partitionPointLoopA (memOf xs) (fun e => call (full xs) (.less e.1 key)) first count : MapProg κ μ Nat) := by
      intro count
      induction count using Nat.strongRecOn with
      | _ count ih =>
        intro first
        rw [partitionPointLoopA]
        split
        · exact rfl
        · refine AllocsWithin.seq ?_
          cases memOf xs (first + count / 2) with
          | none => exact trivial
          | some v =>
            refine AllocsWithin.seq (a := call (full xs) (.less v.1 key)) fun b => ?_
            cases b
            · exact ih _ (by omega) _
            · exact ih _ (by omega) _
    refine AllocsWithin.seq (AllocsWithin.mono ?_ (show AllocsWithin (fun m _ => m = n) n (keyedLowerBoundA xs key) from ?_))
    · intro m it hm
      split
      · exact hm
      · refine AllocsWithin.seq ?_
        cases xs[it]? with
        | none => exact trivial
        | some v => exact AllocsWithin.seq (a := call (full xs) (.less key v.1)) fun b => hm
    · rw [keyedLowerBoundA, lowerBoundA, partitionPointA]
      split
      · exact loop _ _
      · exact trivial
  refine AllocsWithin.seq (AllocsWithin.mono ?_ hf)
  intro m it hm
  split
  · refine AllocsWithin.seq ?_
    cases e : xs[it]? with
    | none => exact trivial
    | some v =>
      refine ⟨hm, fun x hx => ?_⟩
      cases hx
      exact (List.getElem?_eq_some_iff.mp e).1
  · exact ⟨hm, fun x hx => by cases hx⟩

theorem pushBackA_grows {cap mx : Nat} {xs : List (κ × μ)} {n : Nat} (e : κ × μ) (h : cap ≤ xs.length → 1 ≤ n) :
    AllocsWithin (fun m ys => m = (if cap ≤ xs.length then n - 1 else n) ∧ ys = xs ++ [e]) n (pushBackA cap mx xs e) := by
  have rest : ∀ m k, m = k → AllocsWithin (fun m ys => m = k ∧ ys = xs ++ [e]) m
      (call (full xs) (.copy e) >>= fun _ => .lift (if xs.length + 1 ≤ mx then some (xs ++ [e]) else none) : MapProg κ μ (List (κ × μ))) := by
    intro m k hm
    have hl : AllocsWithin (fun m ys => m = k ∧ ys = xs ++ [e]) m (.lift (if xs.length + 1 ≤ mx then some (xs ++ [e]) else none) : MapProg κ μ (List (κ × μ))) := by
      by_cases hx : xs.length + 1 ≤ mx
      · rw [if_pos hx]; exact ⟨hm, rfl⟩
      · rw [if_neg hx]; exact trivial
    exact AllocsWithin.seq (a := call (full xs) (.copy e)) fun b => hl
  refine AllocsWithin.seq (a := allocIf (cap ≤ xs.length) (full xs)) ?_
  by_cases hc : cap ≤ xs.length
  · simp only [if_pos hc, allocIf]
    exact ⟨n - 1, by have := h hc; omega, fun b => rest _ _ rfl⟩
  · simp only [if_neg hc, allocIf]
    exact rest _ _ rfl

theorem upsertLoopA_grows (C : Cfg κ μ) (update broken : μ → μ → μ) (grow : Nat → Nat) : ∀ (other : List (κ × μ)) (cap : Nat) (xs : List (κ × μ)) (n : Nat),
    (xs.length + other.length ≤ cap ∨ (1 ≤ n ∧ xs.length + other.length ≤ grow cap)) → AllocsWithin (fun _ _ => True) n (upsertLoopA C update broken grow cap xs other)
  | [], _, _, _, _ => trivial
  | value :: other, cap, xs, n, h => by
    simp only [List.length_cons] at h
    rw [upsertLoopA]
    refine AllocsWithin.seq (AllocsWithin.mono ?_ (lookupA_grows xs value.1 n))
    rintro m (_ | ⟨it, old⟩) ⟨rfl, hr⟩
    · refine AllocsWithin.seq (AllocsWithin.mono ?_ (pushBackA_grows value (show cap ≤ xs.length → 1 ≤ m from fun hc => by omega)))
      rintro k ys ⟨rfl, rfl⟩
      apply upsertLoopA_grows
      simp only [List.length_append, List.length_cons, List.length_nil]
      split
      · exact .inl (by omega)
      · omega
    · show AllocsWithin _ _ _
      refine AllocsWithin.seq ?_
      cases xs[it]? with
      | none => exact trivial
      | some e =>
        refine AllocsWithin.seq (a := call (full (xs.set it (e.1, broken old value.2))) (.update old value.2)) fun b => ?_
        exact upsertLoopA_grows C update broken grow other cap _ m (by rw [List.length_set]; omega)

theorem pushAllA_grows (grow : Nat → Nat) (mx : Nat) : ∀ (es : List (κ × μ)) (cap : Nat) (xs : List (κ × μ)) (n : Nat),
    (xs.length + es.length ≤ cap ∨ (1 ≤ n ∧ xs.length + es.length ≤ grow cap)) → AllocsWithin (fun _ _ => True) n (pushAllA grow cap mx xs es)
  | [], _, _, _, _ => trivial
  | e :: es, cap, xs, n, h => by
    simp only [List.length_cons] at h
    rw [pushAllA]
    refine AllocsWithin.seq (AllocsWithin.mono ?_ (pushBackA_grows e (show cap ≤ xs.length → 1 ≤ n from fun hc => by omega)))
    rintro k ys ⟨rfl, rfl⟩
    apply pushAllA_grows
    simp only [List.length_append, List.length_cons, List.length_nil]
    split
    · exact .inl (by omega)
    · omega

/-- With room for all new elements, `upsert` does not allocate before it merges; if growing once makes enough room, it allocates at most once. The same is true of adding the
elements of a range that does not know its size. -/
theorem C81_allocations (C : Cfg κ μ) (update broken : μ → μ → μ) (grow : Nat → Nat) (cap mx : Nat) (xs other : List (κ × μ)) (g : τ → MapCall κ μ → Option (Bool × τ)) (t : τ) :
    (xs.length + other.length ≤ cap → allocCount (Ask.exec g t (upsertLoopA C update broken grow cap xs other)).2 = 0 ∧
      allocCount (Ask.exec g t (pushAllA grow cap mx xs other)).2 = 0) ∧
    (xs.length + other.length ≤ grow cap → allocCount (Ask.exec g t (upsertLoopA C update broken grow cap xs other)).2 ≤ 1 ∧
      allocCount (Ask.exec g t (pushAllA grow cap mx xs other)).2 ≤ 1) :=
  ⟨fun h => ⟨Nat.le_zero.mp (AllocsWithin.count g (upsertLoopA_grows C update broken grow other cap xs 0 (.inl h))), Nat.le_zero.mp (AllocsWithin.count g (pushAllA_grows grow mx other cap xs 0 (.inl h)))⟩,
    fun h => ⟨AllocsWithin.count g (upsertLoopA_grows C update broken grow other cap xs 1 (.inr ⟨Nat.le_refl 1, h⟩)), AllocsWithin.count g (pushAllA_grows grow mx other cap xs 1 (.inr ⟨Nat.le_refl 1, h⟩))⟩⟩

/-- Appending a range that knows its size, the first part of inserting it: if it throws, the container is as it was. -/
theorem C81_append_sized (grow : Nat → Nat) (cap mx : Nat) (xs init : List (κ × μ)) (f : τ → MapCall κ μ → Option (Bool × τ)) (t : τ) :
    Unchanged xs (Ask.exec f t (appendA true grow cap mx xs init)).1 :=
  unchanged_of_fine (fine_then (allocIf_keeps (P := fun s => s = full xs) rfl _ _) fun _ _ =>
    fine_then (copyAll_keeps (P := fun s => s = full xs) rfl _ _) fun _ _ => fine_end _ _) f t

/-! ## Inserting a range into an unsorted map -/

theorem readAll_seg {α : Type} {m : Mem α} {xs : List α} (h : Seg m 0 xs) : readAll xs.length m = xs.map some := by
  refine List.ext_getElem (by simp [readAll]) fun i h1 h2 => ?_
  simp only [readAll, List.length_map, List.length_range] at h1
  have := h i h1
  rw [Nat.zero_add] at this
  simp [readAll, this]

theorem removeLoopA_keeps {xs init : List (κ × μ)} : ∀ (k : Nat) {m : Mem (κ × μ)} {ys : List (κ × μ)} {s : Nat} (n : Nat), ys.Perm init → Seg m 0 (xs ++ ys) →
    xs.length ≤ s → s + k ≤ xs.length + ys.length →
    Fine false (fun c => ∃ zs, zs.Perm init ∧ c = full (xs ++ zs)) (fun _ _ => True) n (removeLoopA (xs.length + init.length) 0 k m s)
  | 0, _, _, _, _, _, _, _, _ => Fine.pure trivial
  | k + 1, m, ys, s, n, hp, hseg, hs, hle => by
    have hread : readAll (xs.length + init.length) m = full (xs ++ ys) := by
      rw [← hp.length_eq, ← List.length_append]; exact readAll_seg hseg
    refine fine_get fun value _ => fine_then ?_ fun _ found => ?_
    · refine fine_then (Fine.mono (fun _ a => a) (fun _ _ _ => trivial) (findIfA_within (fun _ n => fine_call ?_ _ n) n)) fun _ _ => Fine.pure trivial
      exact ⟨ys, hp, hread⟩
    · cases found with
      | false => exact removeLoopA_keeps k _ hp hseg (by omega) (by omega)
      | true =>
        simp only [if_true]
        split
        · exact Fine.pure trivial
        · obtain ⟨h1, h2⟩ := seg_append.1 hseg
          rw [Nat.zero_add] at h2
          obtain ⟨m', zs, e, sh, h3, h4⟩ := Shuffled.swap h2 (i := s - xs.length) (j := s + k - xs.length) (by omega) (by omega)
          rw [show xs.length + (s - xs.length) = s by omega, show xs.length + (s + k - xs.length) = s + (k + 1) - 1 by omega] at e
          obtain ⟨ws, p, h5⟩ := sh.perm ys rfl h2
          refine fine_get fun m'' hm'' => ?_
          rw [e] at hm''
          simp only [Option.some.injEq] at hm''
          subst hm''
          refine removeLoopA_keeps k _ (p.trans hp) (seg_append.2 ⟨h1.frame sh.rest fun i hi => by simp only [InRange]; omega, by rw [Nat.zero_add]; exact h5⟩) hs ?_
          rw [p.length_eq]; omega

/-- Inserting a range that knows its size into an unsorted map: whatever throws, the map is as it was, or all elements of the range come after those that were there, in
some order. -/
theorem C81_linear_insert_range (L : Lin κ) (grow : Nat → Nat) (cap : Nat) (xs init : List (κ × μ)) (f : τ → MapCall κ μ → Option (Bool × τ)) (t : τ)
    {s : Contents κ μ} (h : (Ask.exec f t (linInsertRangeA L true grow cap xs init)).1 = .threw s) :
    s = full xs ∨ ∃ ys : List (κ × μ), ys.Perm init ∧ s = full (xs ++ ys) := by
  have key : Fine false (fun s => s = full xs ∨ ∃ ys : List (κ × μ), ys.Perm init ∧ s = full (xs ++ ys)) (fun _ _ => True) 0 (linInsertRangeA L true grow cap xs init) := by
    refine Fine.seq (Fine.mono (P := fun s => s = full xs) (fun _ a => .inl a) (fun k r hr => ?_) (post := fun _ r => r = xs ++ init)
      (fine_then (allocIf_keeps (P := fun s => s = full xs) rfl _ _) fun _ _ => fine_then (copyAll_keeps (P := fun s => s = full xs) rfl _ _) fun _ _ => ?_))
    · subst hr
      refine fine_then (Fine.mono (post := fun _ _ => True) (fun _ a => .inr a) (fun _ _ _ => trivial) ?_) fun _ _ => fine_end _ _
      rw [List.length_append]
      exact removeLoopA_keeps _ _ (.refl init) (memOf_seg _) (Nat.le_refl _) (by omega)
    · refine Fine.lift (fun h => by cases h) fun r h => ?_
      split at h
      · simpa using h.symm
      · cases h
  have := Fine.exec (f := f) (t := t) key
  simp only [Outcome, Ask.Ends, h] at this
  exact this

/-- So what was in the map is found where it was, with the mapped value it had. -/
theorem C81_linear_still_found (L : Lin κ) (xs ys : List (κ × μ)) (k : κ) (h : ∃ x ∈ xs, L.eq k x.1 = true) :
    L.find (xs ++ ys) k = L.find xs k ∧ L.lookup (xs ++ ys) k = L.lookup xs k := by
  have hlt : xs.findIdx (fun e => L.eq k e.1) < xs.length := List.findIdx_lt_length.2 h
  have hf : L.find (xs ++ ys) k = L.find xs k := by rw [L.find_eq, L.find_eq, List.findIdx_append, if_pos hlt]
  refine ⟨hf, ?_⟩
  rw [Lin.lookup, Lin.lookup, hf, L.find_eq]
  simp only [Option.bind_eq_bind, Option.bind_some]
  rw [if_pos (by rw [List.length_append]; omega), if_pos (by omega)]
  simp only [memOf, List.getElem?_append_left hlt]

/-! ## What goes wrong -/

/-- Numbers as keys. -/
def natCfg : Cfg Nat Nat where
  lt := fun a b => decide (a < b)
  eq := fun a b => a == b
  desc := .num 2 fun e => e.1 % 65536
  std := fun m _ _ => some m
  merge := fun m _ _ _ => some m
  mv := .clear
  mx := 100

/-- A linear map with numbers as keys, for examples. -/
def natLin : Lin Nat := ⟨fun a b => a == b, 100⟩

/-- Everything succeeds `n` times. -/
def tiresAll : Nat → MapCall Nat Nat → Option (Bool × Nat)
  | 0, _ => none
  | n + 1, q => some (answers natCfg natLin q, n)

theorem tiresAll_honest : Honest (answers natCfg natLin) tiresAll
  | 0, _, _, _, h => by cases h
  | n + 1, _, _, _, h => by simp only [tiresAll, Option.some.injEq, Prod.mk.injEq] at h; exact h.1.symm

/-- A sort that has nothing to do for a single element. -/
def LazySort (sort : Sorter Nat Nat) : Prop := ∀ xs n, xs.length ≤ n + 1 → sort xs n = pure xs

theorem merge_lazy {sort : Sorter Nat Nat} (hs : LazySort sort) {xs : List (Nat × Nat)} {n : Nat} (h : xs.length ≤ n + 1) :
    mergeSortedAndUnsortedA natCfg sort xs n = mergeSortedAndUnsortedA natCfg (fun xs _ => pure xs) xs n := by
  rw [mergeSortedAndUnsortedA, hs xs n h]; rfl

/-- Inserting the key 1 as a range into a sorted map that has the key 5: the comparison throws when it is called for the first time (after one copy). The map
then has 5 before 1, and 1 is not found. -/
theorem C81_flat_insert_range_violated {sort : Sorter Nat Nat} (hs : LazySort sort) :
    (Ask.exec tiresAll 1 (insertRangeA natCfg sort true (2 * ·) 8 [(5, 50)] [(1, 10)])).1 = .threw (full [(5, 50), (1, 10)]) ∧
    natCfg.find [(5, 50), (1, 10)] 1 = some 2 := by
  refine ⟨?_, by decide +kernel⟩
  have : insertRangeA natCfg sort true (2 * ·) 8 [(5, 50)] [(1, 10)] =
    (call (full [(5, 50)]) (.copy (1, 10)) >>= fun _ => mergeSortedAndUnsortedA natCfg sort [(5, 50), (1, 10)] 1 : MapProg Nat Nat (List (Nat × Nat))) := rfl
  rw [this, merge_lazy hs (by decide)]
  rfl

/-- Inserting the key 4 as a range into a sorted map that has the keys 2 and 6: the comparison throws when it is called for the sixth time. The element with the key 6 is lost, and there is
one without a value in its place. -/
theorem C81_flat_insert_range_loses_violated {sort : Sorter Nat Nat} (hs : LazySort sort) :
    (Ask.exec tiresAll 7 (insertRangeA natCfg sort true (2 * ·) 8 [(2, 20), (6, 60)] [(4, 40)])).1 = .threw [some (2, 20), none, some (4, 40)] := by
  have : insertRangeA natCfg sort true (2 * ·) 8 [(2, 20), (6, 60)] [(4, 40)] =
    (call (full [(2, 20), (6, 60)]) (.copy (4, 40)) >>= fun _ => mergeSortedAndUnsortedA natCfg sort [(2, 20), (6, 60), (4, 40)] 2 : MapProg Nat Nat (List (Nat × Nat))) := rfl
  rw [this, merge_lazy hs (by decide)]
  rfl

/-- The same if there is no memory for the temporary, even if comparisons do not throw: the map is left with 5 before 1. -/
theorem C81_flat_insert_range_alloc_violated {sort : Sorter Nat Nat} (hs : LazySort sort) :
    (Ask.exec (fun (t : Unit) q => match q with | .alloc => none | q => some (answers natCfg natLin q, t)) () (insertRangeA natCfg sort true (2 * ·) 8 [(5, 50)] [(1, 10)])).1 =
      .threw (full [(5, 50), (1, 10)]) := by
  have : insertRangeA natCfg sort true (2 * ·) 8 [(5, 50)] [(1, 10)] =
    (call (full [(5, 50)]) (.copy (1, 10)) >>= fun _ => mergeSortedAndUnsortedA natCfg sort [(5, 50), (1, 10)] 1 : MapProg Nat Nat (List (Nat × Nat))) := rfl
  rw [this, merge_lazy hs (by decide)]
  rfl

/-- A range that does not know its size: copying its second element throws, and the first one stays behind the greater key. -/
theorem C81_flat_insert_unsized_violated (sort : Sorter Nat Nat) :
    (Ask.exec tiresAll 1 (insertRangeA natCfg sort false (2 * ·) 8 [(5, 50)] [(1, 10), (2, 20)])).1 = .threw (full [(5, 50), (1, 10)]) := rfl

/-- `upsert`: copying the second of two new elements throws, and the first one stays behind the greater key. -/
theorem C81_flat_upsert_violated (sort : Sorter Nat Nat) :
    (Ask.exec tiresAll 4 (upsertA natCfg sort (fun _ new => new) (fun old _ => old) (2 * ·) 8 [(5, 50)] [(1, 10), (2, 20)])).1 = .threw (full [(5, 50), (1, 10)]) := by with_unfolding_all rfl

/-- Inserting the keys 2 and 1 as a range into an unsorted map that has the key 1: the comparison throws when it is called for the second time, and
the map has the key 1 twice. -/
theorem C81_linear_insert_range_violated :
    (Ask.exec tiresAll 3 (linInsertRangeA natLin true (2 * ·) 8 [(1, 10)] [(2, 20), (1, 11)])).1 = .threw (full [(1, 10), (2, 20), (1, 11)]) ∧
    ¬ natLin.Unique [(1, 10), (2, 20), (1, 11)] := by
  refine ⟨rfl, ?_⟩
  simp [Lin.Unique, natLin]

/-! ## Examples -/

example : LazySort fun xs _ => pure xs := fun _ _ _ => rfl

/-- With room for it and nothing that throws, the element gets in. -/
example : Ask.exec tiresAll 10 (lazyInsertA natCfg 8 [(1, 10), (5, 50)] 3 30) =
    (.returned (some ([(1, 10), (3, 30), (5, 50)], 1, true)), [(.less 3 5, true), (.less 3 1, false), (.less 1 3, true), (.make, true)]) := by with_unfolding_all rfl

/-- The construction of the element throws. -/
example : (Ask.exec tiresAll 3 (lazyInsertA natCfg 8 [(1, 10), (5, 50)] 3 30)).1 = .threw (full [(1, 10), (5, 50)]) := by with_unfolding_all rfl

/-- The allocation fails. -/
example : (Ask.exec tiresAll 3 (lazyInsertA natCfg 2 [(1, 10), (5, 50)] 3 30)).1 = .threw (full [(1, 10), (5, 50)]) := by with_unfolding_all rfl

example : (Ask.exec tiresAll 5 (linLazyInsertA natLin 8 [(1, 10), (5, 50)] 3 30)).1 = .returned (some ([(1, 10), (5, 50), (3, 30)], 2, true)) := by with_unfolding_all rfl

/-- One allocation for two new keys. -/
example : allocCount (Ask.exec tiresAll 100 (upsertLoopA natCfg (fun _ new => new) (fun old _ => old) (2 * · + 1) 1 [(5, 50)] [(6, 60), (7, 70)])).2 = 1 := by with_unfolding_all rfl

example : ∃ s, (Ask.exec tiresAll 3 (linInsertRangeA natLin true (2 * ·) 8 [(1, 10)] [(2, 20), (1, 11)])).1 = .threw s := ⟨_, rfl⟩

end Verif.Maps
