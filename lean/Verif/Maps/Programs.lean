import Verif.Maps.OnVector
import Verif.Maps.LinearMap
import Verif.Maps.Compare
import Verif.Containers.StdVector

/-!
# Programs that keep iterators of a map (C106)

A program searches a map, keeps the iterators it is given in variables, changes mapped values through them, erases what they refer to, and goes
on from what `erase` and `insert` return. A map keeps its elements in a container, so an insertion shifts elements or moves all of them to
other storage: the model of an iterator is an address, and the specification says which iterators can still be used.
-/

namespace Verif.Maps

open Verif Verif.Algo Verif.Algo.Mem
open Verif.Containers (Impl Lawful Heap GOp Item SV Fresh Frame CS AS Agrees Tracks Done GoodDone Addr)
open Verif.Containers.Lawful

variable {κ μ O R : Type}

/-! ## Model -/

/-- The maps: `basic_flat_map` (`flat_map.cpp` 291-346), `basic_flat_multimap` (`flat_map.cpp` 363-390) and `basic_linear_map` (`linear_map.cpp` 42-199). -/
inductive Kind (κ μ : Type) where
  | flat (C : Cfg κ μ)
  | multi (C : Cfg κ μ)
  | linear (E : Lin κ)

/-- `find` (`flat_map.cpp` 320-327, `linear_map.cpp` 136-142). A multimap has none. -/
def Kind.findOn (I : Impl (κ × μ) O) (K : Kind κ μ) (h : Heap (κ × μ)) (o : O) (key : κ) : Option Nat :=
  match K with
  | .flat C => Maps.findOn I C h o key
  | .multi _ => none
  | .linear E => findIf (I.slots h o) (fun value => E.eq key value.1) 0 (I.size o)

/-- `keyed_lower_bound` (`keyed_binary_search.cpp` 17-23), for maps that are sorted. -/
def Kind.lowerOn (I : Impl (κ × μ) O) (K : Kind κ μ) (h : Heap (κ × μ)) (o : O) (key : κ) : Option Nat :=
  match K with
  | .flat C | .multi C => lowerBound (I.slots h o) (fun e k => C.lt e.1 k) 0 (I.size o) key
  | .linear _ => none

/-- `keyed_upper_bound` (`keyed_binary_search.cpp` 25-31), for maps that are sorted. -/
def Kind.upperOn (I : Impl (κ × μ) O) (K : Kind κ μ) (h : Heap (κ × μ)) (o : O) (key : κ) : Option Nat :=
  match K with
  | .flat C | .multi C => Maps.upperOn I C h o key
  | .linear _ => none

/-- What the program can do without changing the number of elements. `x` and `y` are variables with iterators. -/
inductive MLook (κ μ : Type) where
  /-- `x = map.begin()` -/
  | first (x : Nat)
  /-- `x = map.end()` -/
  | last (x : Nat)
  /-- `y = x + d` -/
  | move (x : Nat) (d : Int) (y : Nat)
  /-- `y - x` -/
  | diff (x y : Nat)
  /-- `*x` -/
  | deref (x : Nat)
  /-- `x->mapped = v` -/
  | write (x : Nat) (v : μ)
  /-- `y = map.find(k)` -/
  | find (k : κ) (y : Nat)
  /-- `y = keyed_lower_bound(map, k)` -/
  | lower (k : κ) (y : Nat)
  /-- `y = keyed_upper_bound(map, k)` -/
  | upper (k : κ) (y : Nat)
  /-- what the pointer `lookup(map, k)` points to, if it is not null -/
  | lookup (k : κ)
  /-- `if (auto p = lookup(map, k)) *p = v;` -/
  | update (k : κ) (v : μ)
  | size
  | capacity
  /-- all elements by a range-based `for` -/
  | iterate

/-- What the program gets from that. -/
inductive MAns (κ μ : Type) where
  | unit
  | nat (n : Nat)
  | int (i : Int)
  | entry (e : κ × μ)
  | mapped (v : Option μ)
  | entries (es : List (κ × μ))
  deriving DecidableEq

/-- The other functions. `t` says if making the element throws, `al` and `f` which allocations fail. `left` is the value of elements that were moved from. -/
inductive MCall (κ μ : Type) where
  /-- `lazy_insert`, `insert(key, mapped)` -/
  | insert (k : κ) (v : μ) (t : Bool) (al : Nat → Bool)
  /-- `insert(range)` -/
  | insertRange (init : List (Item (κ × μ))) (left : κ × μ) (al : Nat → Bool)
  | erase (x : Nat)
  | eraseRange (x y : Nat)
  /-- `erase_if` of a sorted map -/
  | eraseIf (p : κ × μ → Bool) (mv : κ × μ → κ × μ)
  | reserve (n : Nat) (f : Bool)

/-- What the program learns from a call: it threw, or it did not and (for `insert` of one element) if the key is new. -/
inductive MRes where
  | threw
  | done (inserted : Bool)
  deriving DecidableEq

/-- A program. `call m y k`: the iterator that `m` returns goes to the variable `y`. -/
inductive MProg (κ μ R : Type) where
  | ret (r : R)
  | look (l : MLook κ μ) (k : MAns κ μ → MProg κ μ R)
  | call (m : MCall κ μ) (y : Nat) (k : MRes → MProg κ μ R)

/-- `lazy_insert` (`flat_map.cpp` 240-264, `linear_map.cpp` 145-155): how it ends, and the second member of what it returns. -/
def Kind.insertOn (I : Impl (κ × μ) O) (K : Kind κ μ) (h : Heap (κ × μ)) (o : O) (key : κ) (mapped : μ) (t : Bool) (al : Nat → Bool) :
    Done (Heap (κ × μ) × O) × Bool :=
  match K with
  | .flat C =>
    match Maps.upperOn I C h o key with
    | none => (.ub, false)
    | some position =>
      if position = 0 then ((I.insertRet h o position [⟨(key, mapped), t⟩] al).done, true)
      else
        match I.slots h o (position - 1) with
        | none => (.ub, false)
        | some before =>
          if C.lt before.1 key then ((I.insertRet h o position [⟨(key, mapped), t⟩] al).done, true)
          else (.ok (h, o) (some (I.addr o (position - 1))), false)
  | .multi C =>
    match Maps.upperOn I C h o key with
    | none => (.ub, false)
    | some position => ((I.insertRet h o position [⟨(key, mapped), t⟩] al).done, true)
  | .linear E =>
    match Kind.findOn I (.linear E : Kind κ μ) h o key with
    | none => (.ub, false)
    | some it =>
      if it ≠ I.size o then (.ok (h, o) (some (I.addr o it)), false)
      else
        match I.pushBack h o (.lit (key, mapped) t) al with
        | .ok s => (.ok s (some (I.addr s.2 (I.size s.2 - 1))), true)
        | .exn s => (.exn s, true)
        | .ub => (.ub, true)

/-- `merge_sorted_and_unsorted` of a multimap (`flat_map.cpp` 79-91). -/
def mergeMultiOn (I : Impl (κ × μ) O) (C : Cfg κ μ) (h : Heap (κ × μ)) (o : O) (midpoint : Nat) : Out (Heap (κ × μ) × O) :=
  match sortOn I C h o midpoint with
  | .ok s => I.rearrange s.1 s.2 fun m last => C.merge m 0 midpoint last
  | .exn s => .exn s
  | .ub => .ub

/-- `remove_duplicates` (`linear_map.cpp` 174-193). -/
def removeDuplicatesOn (I : Impl (κ × μ) O) (mn : Nat) (E : Lin κ) (h : Heap (κ × μ)) (o : O) (startingFrom : Nat) : Out (Heap (κ × μ) × O) :=
  match E.removeLoop 0 (I.size o - startingFrom) (I.slots h o) startingFrom with
  | some (m, toRemove) => I.step mn (I.put h o m).1 (I.put h o m).2 (.eraseToEnd toRemove)
  | none => .ub

/-- `insert` of a range (`flat_map.cpp` 266-273, `linear_map.cpp` 158-165). -/
def Kind.insertRangeOn (I : Impl (κ × μ) O) (mn : Nat) (K : Kind κ μ) (left : κ × μ) (h : Heap (κ × μ)) (o : O) (init : List (Item (κ × μ))) (al : Nat → Bool) :
    Out (Heap (κ × μ) × O) :=
  match I.step mn h o (.append init al) with
  | .ok s =>
    match K with
    | .flat C => mergeOn I mn C left s.1 s.2 (I.size o)
    | .multi C => mergeMultiOn I C s.1 s.2 (I.size o)
    | .linear E => removeDuplicatesOn I mn E s.1 s.2 (I.size o)
  | .exn s => .exn s
  | .ub => .ub

/-- The functions (`flat_map.cpp` 232-283, `linear_map.cpp` 129-171). -/
def MCall.run (I : Impl (κ × μ) O) (mn : Nat) (K : Kind κ μ) (c : CS (κ × μ) O) : MCall κ μ → Done (Heap (κ × μ) × O) × Bool
  | .insert k v t al => K.insertOn I c.h c.o k v t al
  | .insertRange init left al => (Containers.doneOf (K.insertRangeOn I mn left c.h c.o init al), false)
  | .erase x =>
    match c.at_ I x with
    | some k => ((I.eraseRet c.h c.o k (k + 1)).done, false)
    | none => (.ub, false)
  | .eraseRange x y =>
    match c.at_ I x, c.at_ I y with
    | some k, some j => ((I.eraseRet c.h c.o k j).done, false)
    | _, _ => (.ub, false)
  | .eraseIf p mv =>
    match K with
    | .linear _ => (.ub, false)
    | _ => (Containers.doneOf (I.step mn c.h c.o (.eraseIf p mv)), false)
  | .reserve n f => (Containers.doneOf (I.step mn c.h c.o (.reserve n f)), false)

/-- Assignment to the mapped value of the element at `k`. -/
def setMapped (I : Impl (κ × μ) O) (c : CS (κ × μ) O) (k : Nat) (v : μ) : Option (CS (κ × μ) O) :=
  match I.slots c.h c.o k with
  | none => none
  | some e => (I.assignAt c.h c.o k (e.1, v)).map fun s => { c with h := s.1, o := s.2 }

/-- `flat_map.cpp` 210-231 and 320-327, `linear_map.cpp` 109-142, `lookup.cpp` 19-25, `keyed_binary_search.cpp` 17-31 and uses of iterators, which are those of the container. -/
def MLook.run (I : Impl (κ × μ) O) (K : Kind κ μ) (c : CS (κ × μ) O) : MLook κ μ → Option (MAns κ μ × CS (κ × μ) O)
  | .first x => some (.unit, c.set x (I.addr c.o 0))
  | .last x => some (.unit, c.set x (I.addr c.o (I.size c.o)))
  | .move x d y =>
    match c.at_ I x with
    | none => none
    | some k => if 0 ≤ (k : Int) + d ∧ (k : Int) + d ≤ (I.mem c.h c.o).1 then some (.unit, c.set y (I.addr c.o ((k : Int) + d).toNat)) else none
  | .diff x y =>
    match c.at_ I x, c.at_ I y with
    | some k, some j => some (.int ((j : Int) - k), c)
    | _, _ => none
  | .deref x =>
    match c.its x with
    | none => none
    | some a => (I.deref c.h c.o a).map fun e => (.entry e, c)
  | .write x v =>
    match c.at_ I x with
    | none => none
    | some k => (setMapped I c k v).map fun c' => (.unit, c')
  | .find k y => (K.findOn I c.h c.o k).map fun it => (.unit, c.set y (I.addr c.o it))
  | .lower k y => (K.lowerOn I c.h c.o k).map fun it => (.unit, c.set y (I.addr c.o it))
  | .upper k y => (K.upperOn I c.h c.o k).map fun it => (.unit, c.set y (I.addr c.o it))
  | .lookup k =>
    match K.findOn I c.h c.o k with
    | none => none
    | some it => if it ≠ I.size c.o then (I.slots c.h c.o it).map fun e => (.mapped (some e.2), c) else some (.mapped none, c)
  | .update k v =>
    match K.findOn I c.h c.o k with
    | none => none
    | some it => if it ≠ I.size c.o then (setMapped I c it v).map fun c' => (.unit, c') else some (.unit, c)
  | .size => some (.nat (I.size c.o), c)
  | .capacity => (I.capacity c.o).map fun n => (.nat n, c)
  | .iterate => (Containers.readFrom (I.mem c.h c.o).1 (I.mem c.h c.o).2 0 (I.size c.o)).map fun es => (.entries es, c)

/-- The state after a call, and what the program learns: the iterator that was returned goes to `y`. If the call threw, `y` keeps what it had. -/
def land (c : CS (κ × μ) O) (y : Nat) : Done (Heap (κ × μ) × O) × Bool → Option (MRes × CS (κ × μ) O)
  | (.ok s none, b) => some (.done b, { c with h := s.1, o := s.2 })
  | (.ok s (some a), b) => some (.done b, CS.set { c with h := s.1, o := s.2 } y a)
  | (.exn s, _) => some (.threw, { c with h := s.1, o := s.2 })
  | (.ub, _) => none

/-- Running a program; nothing if it is undefined. -/
def MProg.run (I : Impl (κ × μ) O) (mn : Nat) (K : Kind κ μ) : MProg κ μ R → CS (κ × μ) O → Option (R × CS (κ × μ) O)
  | .ret r, c => some (r, c)
  | .look l k, c =>
    match l.run I K c with
    | some (a, c') => (k a).run I mn K c'
    | none => none
  | .call m y k, c =>
    match land c y (m.run I mn K c) with
    | some (x, c') => (k x).run I mn K c'
    | none => none

/-! ## Specification

The elements in the order in which the map has them, a capacity, and for every variable an index or that it must not be used. There is nothing
about searching here: the place of a key is found by counting. -/

/-- Whether the map takes two keys for the same. -/
def Kind.same : Kind κ μ → κ → κ → Bool
  | .flat C, k, k' | .multi C, k, k' => !C.lt k k' && !C.lt k' k
  | .linear E, k, k' => E.eq k k'

/-- Where a new key goes: after those that are less; in a multimap also after those that are the same; in a linear map after all. -/
def Kind.place (K : Kind κ μ) (xs : List (κ × μ)) (k : κ) : Nat :=
  match K with
  | .flat C => xs.countP fun e => C.lt e.1 k
  | .multi C => xs.countP fun e => !C.lt k e.1
  | .linear _ => xs.length

/-- The index of the first element with the key; the number of elements if there is none. -/
def Kind.index (K : Kind κ μ) (xs : List (κ × μ)) (k : κ) : Nat := xs.findIdx fun e => K.same k e.1

/-- The key is there, and cannot be there twice. -/
def Kind.has (K : Kind κ μ) (xs : List (κ × μ)) (k : κ) : Bool :=
  match K with
  | .multi _ => false
  | _ => xs.any fun e => K.same k e.1

/-- What adding an element is for the container. -/
def Kind.adds (K : Kind κ μ) (xs : List (κ × μ)) (k : κ) (v : μ) (t : Bool) (al : Nat → Bool) : GOp (κ × μ) :=
  match K with
  | .linear _ => .push (.lit (k, v) t) al
  | _ => .insert (K.place xs k) [⟨(k, v), t⟩] al

/-- The elements after inserting those of a range one after the other. -/
def Kind.insertEach (K : Kind κ μ) : List (κ × μ) → List (κ × μ) → List (κ × μ)
  | xs, [] => xs
  | xs, e :: init => K.insertEach (if K.has xs e.1 then xs else xs.take (K.place xs e.1) ++ e :: xs.drop (K.place xs e.1)) init

/-- What a linear map with the elements `us` takes from a range: if the key of its first element is there already the last element comes in its place. -/
def Lin.takes (E : Lin κ) (us rest : List (κ × μ)) : List (κ × μ) :=
  match rest with
  | [] => []
  | e :: rest => if us.any fun x => E.eq e.1 x.1 then E.takes us (rest.getLast?.toList ++ rest.dropLast) else e :: E.takes (us ++ [e]) rest
termination_by rest.length
decreasing_by
  · cases rest <;> simp [List.getLast?_cons]
  · simp

/-- The elements after inserting those of a range. -/
def Kind.insertAll (K : Kind κ μ) (xs init : List (κ × μ)) : List (κ × μ) :=
  match K with
  | .linear E => xs ++ E.takes xs init
  | _ => K.insertEach xs init

/-- After `insert` of a range: a linear map has its old elements where they were, so their iterators are valid if there was room for the range; others make
all iterators invalid. -/
def Kind.afterRange (K : Kind κ μ) (u : GOp (κ × μ)) (a : AS (κ × μ)) (z : Nat) : Option Nat :=
  match K with
  | .linear _ => (a.pos z).filter (u.valid a.s false)
  | _ => none

/-- After an operation `u` of the container that gives index `g` for the variable `y`: iterators are valid as for the container. -/
def afterOp (q : Containers.Cfg) (u : GOp (κ × μ)) (g : Option Nat) (y : Nat) (a : AS (κ × μ)) : AS (κ × μ) :=
  ⟨(u.spec q a.s).1, fun z =>
    if z = y ∧ (u.spec q a.s).2 = false ∧ g.isSome then g else (a.pos z).filter (u.valid a.s (u.spec q a.s).2)⟩

/-- What the program learns after an operation of the container. -/
def resOp (q : Containers.Cfg) (u : GOp (κ × μ)) (inserted : Bool) (a : AS (κ × μ)) : MRes := if (u.spec q a.s).2 then .threw else .done inserted

/-- The meaning of a call whose result goes to `y`. If `insert` of a range throws it changes nothing. -/
def MCall.mean (K : Kind κ μ) (q : Containers.Cfg) (y : Nat) (a : AS (κ × μ)) : MCall κ μ → Option (MRes × AS (κ × μ))
  | .insert k v t al =>
    if K.has a.s.1 k then some (.done false, a.set y (K.index a.s.1 k))
    else some (resOp q (K.adds a.s.1 k v t al) true a, afterOp q (K.adds a.s.1 k v t al) (some (K.place a.s.1 k)) y a)
  | .insertRange init _ al =>
    some (resOp q (.append init al) false a,
      if ((GOp.append init al).spec q a.s).2 then a
      else ⟨(K.insertAll a.s.1 (init.map (·.val)), ((GOp.append init al).spec q a.s).1.2), K.afterRange (.append init al) a⟩)
  | .erase x => (a.pos x).map fun p => (.done false, afterOp q (.erase p (p + 1)) (some p) y a)
  | .eraseRange x x' => (a.pos x).bind fun p => (a.pos x').map fun r => (.done false, afterOp q (.erase p r) (some p) y a)
  | .eraseIf p mv => some (.done false, afterOp q (.eraseIf p mv) none y a)
  | .reserve n f => some (resOp q (.reserve n f) false a, afterOp q (.reserve n f) none y a)

/-- The elements after an assignment to the mapped value of the one with index `p`. -/
def setAt (xs : List (κ × μ)) (p : Nat) (v : μ) : List (κ × μ) := xs.modify p fun e => (e.1, v)

/-- What can be seen. -/
def MLook.mean (K : Kind κ μ) (a : AS (κ × μ)) : MLook κ μ → Option (MAns κ μ × AS (κ × μ))
  | .first x => some (.unit, a.set x 0)
  | .last x => some (.unit, a.set x a.s.1.length)
  | .move x d y => (a.pos x).map fun (k : Nat) => (.unit, a.set y ((k : Int) + d).toNat)
  | .diff x y => (a.pos x).bind fun (k : Nat) => (a.pos y).map fun (j : Nat) => (.int ((j : Int) - k), a)
  | .deref x => (a.pos x).bind fun k => a.s.1[k]?.map fun e => (.entry e, a)
  | .write x v => (a.pos x).map fun k => (.unit, { a with s := (setAt a.s.1 k v, a.s.2) })
  | .find k y => some (.unit, a.set y (K.index a.s.1 k))
  | .lower k y =>
    match K with
    | .flat C | .multi C => some (.unit, a.set y (a.s.1.countP fun e => C.lt e.1 k))
    | .linear _ => none
  | .upper k y =>
    match K with
    | .flat C | .multi C => some (.unit, a.set y (a.s.1.countP fun e => !C.lt k e.1))
    | .linear _ => none
  | .lookup k => some (.mapped ((a.s.1.find? fun e => K.same k e.1).map (·.2)), a)
  | .update k v => some (.unit, { a with s := (setAt a.s.1 (K.index a.s.1 k) v, a.s.2) })
  | .size => some (.nat a.s.1.length, a)
  | .capacity => some (.nat a.s.2, a)
  | .iterate => some (.entries a.s.1, a)

/-- The meaning of a program. -/
def MProg.mean (K : Kind κ μ) (q : Containers.Cfg) : MProg κ μ R → AS (κ × μ) → Option (R × AS (κ × μ))
  | .ret r, a => some (r, a)
  | .look l k, a => (l.mean K a).bind fun x => (k x.1).mean K q x.2
  | .call m y k, a => (m.mean K q y a).bind fun x => (k x.1).mean K q x.2

/-- What the program has to ensure for a look: valid iterators, elements that exist, functions that the map has. -/
def MLook.Pre (K : Kind κ μ) (a : AS (κ × μ)) : MLook κ μ → Prop
  | .first _ | .last _ | .size | .capacity | .iterate => True
  | .move x d _ => ∃ k, a.pos x = some k ∧ 0 ≤ (k : Int) + d ∧ (k : Int) + d ≤ a.s.1.length
  | .diff x y => (a.pos x).isSome ∧ (a.pos y).isSome
  | .deref x | .write x _ => ∃ k, a.pos x = some k ∧ k < a.s.1.length
  | .find _ _ | .lookup _ | .update _ _ => ∀ C, K ≠ .multi C
  | .lower _ _ | .upper _ _ => ∀ E, K ≠ .linear E

/-- For a call: valid iterators, elements that exist; for `insert` of a range into a sorted map see `C33_insert_range_partial`, and its keys are different. A linear
map in a full container must be able to double it (C26). -/
def MCall.Pre (K : Kind κ μ) (q : Containers.Cfg) (a : AS (κ × μ)) : MCall κ μ → Prop
  | .insert k _ _ _ => ∀ E, K = .linear E → K.has a.s.1 k = false → Containers.pushPre q a.s
  | .insertRange init _ _ => Containers.appendPre q a.s init.length ∧ ∀ C, K = .flat C ∨ K = .multi C → C.Sortable (init.map (·.val)) ∧
      (init.map (·.val)).Pairwise fun x y => ¬ C.Same x.1 y.1
  | .erase x => ∃ p, a.pos x = some p ∧ p < a.s.1.length
  | .eraseRange x y => ∃ p r, a.pos x = some p ∧ a.pos y = some r ∧ p ≤ r ∧ r ≤ a.s.1.length
  | .eraseIf _ _ => ∀ E, K ≠ .linear E
  | .reserve n _ => n ≤ q.mx ∧ q.reservable = true

/-- In the run that it has. -/
def MProg.Pre (K : Kind κ μ) (q : Containers.Cfg) : MProg κ μ R → AS (κ × μ) → Prop
  | .ret _, _ => True
  | .look l k, a => l.Pre K a ∧ ∀ x, l.mean K a = some x → (k x.1).Pre K q x.2
  | .call m y k, a => m.Pre K q a ∧ ∀ x, m.mean K q y a = some x → (k x.1).Pre K q x.2

/-- What the order or equality of keys has to be. For `insert` of a range sorted maps need a sort that sorts, `flat_map` values that survive assignment to
themselves and a multimap a merge that merges. -/
def Kind.Ok : Kind κ μ → Prop
  | .flat C => C.Ok ∧ C.mv ≠ .clearSelf
  | .multi C => C.Ok ∧ MergesBy C.elt C.merge
  | .linear E => Equivalence' E.eq

/-- What is always so for the elements: in a `flat_map` keys increase, in a multimap they do not decrease, in a linear map none is there twice. -/
def Kind.Inv (K : Kind κ μ) (xs : List (κ × μ)) : Prop :=
  match K with
  | .flat C => xs.Pairwise fun x y => C.lt x.1 y.1 = true
  | .multi C => xs.Pairwise fun x y => C.lt y.1 x.1 = false
  | .linear _ => xs.Pairwise fun x y => K.same x.1 y.1 = false

/-! ## Proofs -/

variable {I : Impl (κ × μ) O} {mn : Nat} {mkA : Bool} {L : Lawful I mn mkA} {K : Kind κ μ} {C : Cfg κ μ}

theorem same_true {k k' : κ} : (!C.lt k k' && !C.lt k' k) = true ↔ C.Same k k' := by
  simp [Cfg.Same]

/-! ### Searching -/

theorem find_index (ho : StrictWeak C.lt) {xs : List (κ × μ)} (hx : xs.Pairwise fun x y => C.lt x.1 y.1 = true) (k : κ) :
    C.find xs k = some ((Kind.flat C).index xs k) := by
  obtain ⟨i, e, h⟩ := C33_find ho (S := (· ∈ xs)) ⟨hx, fun _ => Iff.rfl⟩ k
  rw [e]
  congr 1
  rcases h with ⟨x, hx1, -, hs⟩ | ⟨rfl, hno⟩
  · obtain ⟨hi, hxi⟩ := List.getElem?_eq_some_iff.1 hx1
    symm
    refine (List.findIdx_eq hi).2 ⟨?_, fun j hj => ?_⟩
    · show (!C.lt k xs[i].1 && !C.lt xs[i].1 k) = true
      rw [hxi]; exact same_true.2 hs.symm
    · have := List.pairwise_iff_getElem.1 hx j i (by omega) hi hj
      show (!C.lt k xs[j].1 && !C.lt xs[j].1 k) = false
      rw [hxi] at this
      have : C.lt xs[j].1 k = true := by
        by_contra hc
        have hc : C.lt xs[j].1 k = false := by simpa using hc
        have := ho.negTrans hs.2 hc
        simp_all
      simp [this]
  · symm
    refine List.findIdx_eq_length.2 fun x hm => ?_
    have := hno x hm
    show (!C.lt k x.1 && !C.lt x.1 k) = false
    by_contra hc
    exact this (same_true.1 (by simpa using hc)).symm

theorem Kind.index_le (K : Kind κ μ) (xs : List (κ × μ)) (k : κ) : K.index xs k ≤ xs.length := List.findIdx_le_length

theorem place_le (K : Kind κ μ) (xs : List (κ × μ)) (k : κ) : K.place xs k ≤ xs.length := by
  cases K
  · exact List.countP_le_length
  · exact List.countP_le_length
  · exact Nat.le_refl _

/-- `find` finds the first element with the key. -/
theorem Kind.findOn_eq (hK : K.Ok) {h : Heap (κ × μ)} {o : O} {xs : List (κ × μ)} {cap : Nat} (r : L.Rep h o xs cap) (hi : K.Inv xs) (hm : ∀ C, K ≠ .multi C) (k : κ) :
    K.findOn I h o k = some (K.index xs k) := by
  cases K with
  | flat C => exact (Maps.findOn_eq r k).trans (find_index hK.1.order hi k)
  | multi C => exact absurd rfl (hm C)
  | linear E =>
    simp only [Kind.findOn, slots_memOf r, size_of r]
    exact E.find_eq xs k

theorem Inv.sorted (hK : K.Ok) {xs : List (κ × μ)} (hi : K.Inv xs) (hm : ∀ E, K ≠ .linear E) : ∃ C, (K = .flat C ∨ K = .multi C) ∧ StrictWeak C.lt ∧ Sorted C.elt xs := by
  cases K with
  | flat C => exact ⟨C, .inl rfl, hK.1.order, sorted_of_increasing hK.1.order hi⟩
  | multi C => exact ⟨C, .inr rfl, hK.1.order, hi⟩
  | linear E => exact absurd rfl (hm E)

theorem index_of (ho : StrictWeak C.lt) {xs : List (κ × μ)} (hx : xs.Pairwise fun x y => C.lt x.1 y.1 = true) {k : κ} {i : Nat} (hi : i < xs.length)
    (hs : C.Same xs[i].1 k) : (Kind.flat C).index xs k = i := by
  refine (List.findIdx_eq hi).2 ⟨same_true.2 hs.symm, fun j hj => ?_⟩
  have h1 := List.pairwise_iff_getElem.1 hx j i (by omega) hi hj
  show (!C.lt k xs[j].1 && !C.lt xs[j].1 k) = false
  have : C.lt xs[j].1 k = true := by
    by_contra hc
    have hc : C.lt xs[j].1 k = false := by simpa using hc
    have := ho.negTrans hs.2 hc
    simp_all
  simp [this]

/-- The place of a new key is where `upper_bound` is. -/
theorem place_new (ho : StrictWeak C.lt) {xs : List (κ × μ)} {k : κ} (hn : ∀ e ∈ xs, ¬ C.Same k e.1) :
    (xs.countP fun e => !C.lt k e.1) = xs.countP fun e => C.lt e.1 k := by
  refine List.countP_congr fun e he => ?_
  have := hn e he
  simp only [Cfg.Same] at this
  cases h1 : C.lt k e.1 <;> cases h2 : C.lt e.1 k <;> simp_all
  have := ho.asymm h1
  simp_all

theorem not_has {xs : List (κ × μ)} {k : κ} (hn : (Kind.flat C).has xs k = false) : ∀ e ∈ xs, ¬ C.Same k e.1 := by
  intro e he hs
  simp only [Kind.has, List.any_eq_false] at hn
  exact hn e he (same_true.2 hs)

theorem has_lin {E : Lin κ} {xs : List (κ × μ)} {k : κ} : (Kind.linear E : Kind κ μ).has xs k = decide ((Kind.linear E : Kind κ μ).index xs k ≠ xs.length) := by
  have : ((Kind.linear E : Kind κ μ).index xs k = xs.length) ↔ (Kind.linear E : Kind κ μ).has xs k = false := by
    simp only [Kind.index, Kind.has, List.findIdx_eq_length, List.any_eq_false, Bool.not_eq_true]
  cases h : (Kind.linear E : Kind κ μ).has xs k
  · simp [this.2 h]
  · have : ¬ ((Kind.linear E : Kind κ μ).index xs k = xs.length) := fun hc => by rw [this.1 hc] at h; cases h
    simp [this]

/-! ### Inserting -/

theorem insert_good (hK : K.Ok) {h : Heap (κ × μ)} {o : O} {xs : List (κ × μ)} {cap : Nat} (r : L.Rep h o xs cap) (hf : Fresh h) (hi : K.Inv xs) (k : κ) (v : μ)
    (t : Bool) (al : Nat → Bool) (hp : ∀ E, K = .linear E → K.has xs k = false → Containers.pushPre L.cfg (xs, cap)) :
    (K.has xs k = true → K.insertOn I h o k v t al = (.ok (h, o) (some (I.addr o (K.index xs k))), false)) ∧
    (K.has xs k = false → ∃ d, K.insertOn I h o k v t al = (d, true) ∧ GoodDone L h o d ((K.adds xs k v t al).spec L.cfg (xs, cap)) (some (K.place xs k))) := by
  cases K with
  | flat C =>
    have ho := hK.1.order
    have hi : xs.Pairwise fun x y => C.lt x.1 y.1 = true := hi
    have hs := sorted_of_increasing ho hi
    obtain ⟨ht, hd⟩ := upper_take ho hs k
    have e : Maps.upperOn I C h o k = _ := (upperOn_eq r k).trans (keyedUpperBound_eq ho hs k)
    have hle : (xs.countP fun e => !C.lt k e.1) ≤ xs.length := List.countP_le_length
    have hpl : (∀ e ∈ xs, ¬ C.Same k e.1) → (xs.countP fun e => !C.lt k e.1) = (Kind.flat C).place xs k := fun hn => place_new ho hn
    generalize (xs.countP fun e => !C.lt k e.1) = c at *
    simp only [Kind.insertOn, e]
    constructor
    · intro hh
      simp only [Kind.has, List.any_eq_true] at hh
      obtain ⟨x, hx, hsame⟩ := hh
      have hsame : C.Same k x.1 := same_true.1 hsame
      have hxt : x ∈ xs.take c := by
        rw [← List.take_append_drop c xs, List.mem_append] at hx
        rcases hx with hx | hx
        · exact hx
        · have := hd x hx; rw [hsame.1] at this; cases this
      obtain ⟨j, hj, rfl⟩ := List.mem_take_iff_getElem.1 hxt
      have hc0 : c ≠ 0 := by omega
      have hc1 : c - 1 < xs.length := by omega
      have hle' : C.lt xs[c - 1].1 xs[j].1 = false := by
        by_cases hjc : j = c - 1
        · subst hjc; exact ho.irrefl _
        · exact ho.asymm (List.pairwise_iff_getElem.1 hi j (c - 1) (by omega) hc1 (by omega))
      have hlt : C.lt xs[c - 1].1 k = false := ho.negTrans hsame.2 hle'
      have hkl : C.lt k xs[c - 1].1 = false := ht _ (List.mem_take_iff_getElem.2 ⟨c - 1, by omega, rfl⟩)
      rw [if_neg hc0, slots_memOf r]
      simp only [memOf, List.getElem?_eq_getElem hc1, hlt, Bool.false_eq_true, if_false]
      rw [index_of ho hi hc1 ⟨hlt, hkl⟩]
    · intro hh
      have hn := not_has hh
      have hpre : (GOp.insert c [⟨(k, v), t⟩] al).pre L.cfg (xs, cap) := ⟨hle, fun hh => by cases hh⟩
      have hg := Containers.goodDone_insert (L := L) r hf [⟨(k, v), t⟩] al hpre
      refine ⟨(I.insertRet h o c [⟨(k, v), t⟩] al).done, ?_, ?_⟩
      · by_cases hc0 : c = 0
        · rw [if_pos hc0]
        · have hc1 : c - 1 < xs.length := by omega
          rw [if_neg hc0, slots_memOf r]
          simp only [memOf, List.getElem?_eq_getElem hc1]
          have hkl : C.lt k xs[c - 1].1 = false := ht _ (List.mem_take_iff_getElem.2 ⟨c - 1, by omega, rfl⟩)
          have := hn _ (List.getElem_mem hc1)
          rw [if_pos]
          by_contra hc
          exact this ⟨hkl, by simpa using hc⟩
      · show GoodDone L h o _ ((GOp.insert ((Kind.flat C).place xs k) [⟨(k, v), t⟩] al).spec L.cfg (xs, cap)) _
        rw [← hpl hn]; exact hg
  | multi C =>
    have hs : Sorted C.elt xs := hi
    have e : Maps.upperOn I C h o k = _ := (upperOn_eq r k).trans (keyedUpperBound_eq hK.1.order hs k)
    have e' : (Kind.multi C).insertOn I h o k v t al = ((I.insertRet h o ((Kind.multi C).place xs k) [⟨(k, v), t⟩] al).done, true) := by
      simp only [Kind.insertOn, e, Kind.place]
    refine ⟨fun (hh : false = true) => (by cases hh), fun _ => ⟨_, e', ?_⟩⟩
    exact Containers.goodDone_insert (L := L) r hf [⟨(k, v), t⟩] al ⟨List.countP_le_length, fun hh => by cases hh⟩
  | linear E =>
    have e := Kind.findOn_eq (K := .linear E) (L := L) hK r hi (fun C hc => by cases hc) k
    simp only [Kind.insertOn, e]
    constructor
    · intro hh
      rw [has_lin, decide_eq_true_eq] at hh
      rw [if_pos (by rw [size_of r]; exact hh)]
    · intro hh
      have hpp := hp E rfl hh
      rw [has_lin, decide_eq_false_iff_not, not_not] at hh
      rw [if_neg (by rw [size_of r]; simpa using hh)]
      obtain ⟨h', o', e', r', f', pr⟩ := good_push (L := L) r hf (.lit (k, v) t) (k, v) t al hpp (.inl rfl)
      rw [e']
      cases hb : (Containers.specPush L.cfg (xs, cap) (k, v) t al).2 with
      | true =>
        refine ⟨_, rfl, h', o', ?_, r', f', pr⟩
        show Done.exn (h', o') = if (Containers.specPush L.cfg (xs, cap) (k, v) t al).2 then _ else _
        rw [hb]; rfl
      | false =>
        refine ⟨_, rfl, h', o', ?_, r', f', pr⟩
        show Done.ok (h', o') _ = if (Containers.specPush L.cfg (xs, cap) (k, v) t al).2 then _ else _
        have hsq := Containers.specPush_seq hb
        rw [hb, size_of r', hsq]
        simp [Kind.place]

/-! ### The elements stay in order -/

theorem Inv.keys {xs ys : List (κ × μ)} (h : ys.map (·.1) = xs.map (·.1)) (hi : K.Inv xs) : K.Inv ys := by
  have key : ∀ (R : κ → κ → Prop), (xs.Pairwise fun x y => R x.1 y.1) → ys.Pairwise fun x y => R x.1 y.1 := by
    intro R hx
    have := List.pairwise_map (f := fun e : κ × μ => e.1) (R := R) (l := xs)
    rw [← h, List.pairwise_map] at this
    exact this.2 hx
  cases K with
  | flat C => exact key (fun a b => C.lt a b = true) hi
  | multi C => exact key (fun a b => C.lt b a = false) hi
  | linear E => exact key (fun a b => (Kind.linear E : Kind κ μ).same a b = false) hi

theorem Inv.sub {xs ys : List (κ × μ)} (h : ys.Sublist xs) (hi : K.Inv xs) : K.Inv ys := by
  cases K <;> exact List.Pairwise.sublist h hi

theorem setAt_keys (xs : List (κ × μ)) (p : Nat) (v : μ) : (setAt xs p v).map (·.1) = xs.map (·.1) := by
  apply List.ext_getElem?
  intro i
  simp only [setAt, List.getElem?_map, List.getElem?_modify]
  cases xs[i]? with
  | none => simp
  | some e => by_cases h : p = i <;> simp [h]

theorem setAt_length (xs : List (κ × μ)) (p : Nat) (v : μ) : (setAt xs p v).length = xs.length := List.length_modify ..

theorem setAt_set {xs : List (κ × μ)} {p : Nat} (hp : p < xs.length) (v : μ) : setAt xs p v = xs.set p (xs[p].1, v) := by
  rw [setAt, List.modify_eq_set_getElem?, List.getElem?_eq_getElem hp]; rfl

theorem setAt_out {xs : List (κ × μ)} {p : Nat} (hp : xs.length ≤ p) (v : μ) : setAt xs p v = xs := by
  rw [setAt, List.modify_eq_self hp]

theorem Inv.insert (hK : K.Ok) {xs : List (κ × μ)} (hi : K.Inv xs) {k : κ} (hn : K.has xs k = false) (v : μ) :
    K.Inv (xs.take (K.place xs k) ++ (k, v) :: xs.drop (K.place xs k)) := by
  cases K with
  | flat C =>
    have ho := hK.1.order
    have hs := sorted_of_increasing ho hi
    obtain ⟨ht, hd⟩ := upper_take ho hs k
    have hn := not_has hn
    rw [place_new ho hn] at ht hd
    refine insert_increasing ho hi (fun x hx => ?_) hd
    have := hn x (List.mem_of_mem_take hx)
    by_contra hc
    exact this ⟨ht x hx, by simpa using hc⟩
  | multi C =>
    have hs : Sorted C.elt xs := hi
    have ho : StrictWeak C.lt := hK.1.order
    obtain ⟨ht, hd⟩ := upper_take ho hs k
    have h3 := hs
    rw [← List.take_append_drop ((Kind.multi C).place xs k) xs] at h3
    obtain ⟨a1, a2, a3⟩ := List.pairwise_append.1 h3
    refine List.pairwise_append.2 ⟨a1, List.pairwise_cons.2 ⟨fun y hy => ho.asymm (hd y hy), a2⟩, fun x hx y hy => ?_⟩
    rcases List.mem_cons.1 hy with rfl | hy
    · exact ht x hx
    · exact a3 x hx y hy
  | linear E =>
    have hi' : xs.Pairwise fun x y => E.eq x.1 y.1 = false := hi
    show List.Pairwise (fun x y : κ × μ => E.eq x.1 y.1 = false) _
    simp only [Kind.place, List.take_length, List.drop_length]
    refine List.pairwise_append.2 ⟨hi', by simp, fun x hx y hy => ?_⟩
    rw [List.mem_singleton] at hy
    subst hy
    simp only [Kind.has, List.any_eq_false] at hn
    have := hn x hx
    by_contra hc
    have hc : E.eq x.1 k = true := by simpa using hc
    exact this (hK.symm _ _ hc)

theorem Inv.insertEach (hK : K.Ok) : ∀ (init : List (κ × μ)) {xs : List (κ × μ)}, K.Inv xs → K.Inv (K.insertEach xs init)
  | [], _, hi => hi
  | e :: init, xs, hi => by
    rw [Kind.insertEach]
    refine Inv.insertEach hK init ?_
    split
    · exact hi
    · rename_i hn
      exact Inv.insert hK hi (by simpa using hn) e.2

/-- What is there after inserting a range with different keys. -/
theorem mem_insertEach (ho : StrictWeak C.lt) : ∀ (init : List (κ × μ)) {xs : List (κ × μ)}, (init.Pairwise fun x y => ¬ C.Same x.1 y.1) → ∀ e,
    e ∈ (Kind.flat C).insertEach xs init ↔ e ∈ xs ∨ e ∈ init ∧ ∀ x ∈ xs, ¬ C.Same x.1 e.1
  | [], xs, _, e => by simp [Kind.insertEach]
  | i :: init, xs, hd, e => by
    obtain ⟨hd1, hd2⟩ := List.pairwise_cons.1 hd
    rw [Kind.insertEach, mem_insertEach ho init hd2]
    split
    · rename_i hh
      simp only [Kind.has, List.any_eq_true] at hh
      obtain ⟨x, hx, hs⟩ := hh
      have hs := same_true.1 hs
      constructor
      · rintro (h | ⟨h1, h2⟩)
        · exact .inl h
        · exact .inr ⟨List.mem_cons_of_mem _ h1, h2⟩
      · rintro (h | ⟨h1, h2⟩)
        · exact .inl h
        · rcases List.mem_cons.1 h1 with rfl | h1
          · exact absurd hs.symm (h2 x hx)
          · exact .inr ⟨h1, h2⟩
    · rename_i hh
      have hn := not_has (by simpa using hh)
      simp only [mem_insert]
      constructor
      · rintro ((h | rfl) | ⟨h1, h2⟩)
        · exact .inl h
        · exact .inr ⟨List.mem_cons_self, fun x hx hs => hn x hx hs.symm⟩
        · exact .inr ⟨List.mem_cons_of_mem _ h1, fun x hx => h2 x (.inl hx)⟩
      · rintro (h | ⟨h1, h2⟩)
        · exact .inl (.inl h)
        · rcases List.mem_cons.1 h1 with rfl | h4
          · exact .inl (.inr rfl)
          · refine .inr ⟨h4, ?_⟩
            rintro x (hx | rfl)
            · exact h2 x hx
            · exact hd1 e h4

/-- Merging a sorted range into the map is inserting its elements one after the other. -/
theorem merged_insertEach (hC : C.Ok) {xs ys ys' zs : List (κ × μ)} (hx : xs.Pairwise fun x y => C.lt x.1 y.1 = true) (hd : ys.Pairwise fun x y => ¬ C.Same x.1 y.1)
    (hk : C.mv ≠ .clearSelf) (hp : ys'.Perm ys) (hu : IsUniqued C.elt (xs ++ ys') zs) : zs = (Kind.flat C).insertEach xs ys := by
  obtain ⟨h1, h2, h3⟩ := uniqued_append hC.order hx hu
  refine increasing_ext hC.order hu.increasing (Inv.insertEach (K := .flat C) ⟨hC, hk⟩ ys hx) fun e => ?_
  rw [mem_insertEach hC.order ys hd]
  constructor
  · intro he
    rcases h2 e he with hm | ⟨hm, hn⟩
    · exact .inl hm
    · exact .inr ⟨hp.mem_iff.1 hm, hn⟩
  · rintro (he | ⟨he, hn⟩)
    · exact h1 e he
    · obtain ⟨z, hz, hs⟩ := h3 e (hp.mem_iff.2 he)
      rcases h2 z hz with hm | ⟨hm, -⟩
      · exact absurd hs (hn z hm)
      · have hm := hp.mem_iff.1 hm
        have hzs : z = e := by
          by_contra hne
          obtain ⟨i, hi, rfl⟩ := List.mem_iff_getElem.1 hm
          obtain ⟨j, hj, rfl⟩ := List.mem_iff_getElem.1 he
          have hij : i ≠ j := fun hc => hne (by subst hc; rfl)
          rcases Nat.lt_or_gt_of_ne hij with hlt | hlt
          · exact List.pairwise_iff_getElem.1 hd i j hi hj hlt hs
          · exact List.pairwise_iff_getElem.1 hd j i hj hi hlt hs.symm
        exact hzs ▸ hz


/-- In a multimap the elements of a range go where they would go one after the other. -/
theorem insertEach_stable (ho : StrictWeak C.lt) : ∀ (init : List (κ × μ)) {xs : List (κ × μ)}, Sorted C.elt xs → IsStableSort C.elt (xs ++ init) ((Kind.multi C).insertEach xs init)
  | [], xs, hs => by rw [List.append_nil]; exact .refl hs
  | e :: init, xs, hs => by
    obtain ⟨ht, hd⟩ := upper_take ho hs e.1
    have h1 : IsStableSort C.elt (xs ++ [e]) (xs.take ((Kind.multi C).place xs e.1) ++ e :: xs.drop ((Kind.multi C).place xs e.1)) := stable_insert (ho.comap _) hs ht hd
    have h2 := h1.append_trans (insertEach_stable ho init h1.sorted)
    rw [List.append_assoc, List.singleton_append] at h2
    exact h2

/-- If no two elements of a range are equivalent it does not matter in which order they come to a stable sort. -/
theorem stable_of_perm {lt : κ × μ → κ × μ → Bool} (ho : StrictWeak lt) {xs ys ys' zs : List (κ × μ)} (hp : ys'.Perm ys) (hd : ys.Pairwise fun x y => equiv lt x y = false)
    (h : IsStableSort lt (xs ++ ys') zs) : IsStableSort lt (xs ++ ys) zs := by
  refine ⟨h.sorted, h.perm.trans (hp.append_left _), fun x => ?_⟩
  rw [h.stable x, List.filter_append, List.filter_append]
  congr 1
  have h1 := hp.filter (equiv lt x)
  have h2 : (ys.filter (equiv lt x)).Pairwise fun x y => equiv lt x y = false := hd.sublist List.filter_sublist
  have h3 : ∀ y ∈ ys.filter (equiv lt x), equiv lt x y = true := fun y hy => (List.mem_filter.1 hy).2
  generalize ys.filter (equiv lt x) = l at h1 h2 h3
  match l, h1, h2, h3 with
  | [], h1, _, _ => exact h1.eq_nil
  | [a], h1, _, _ => exact List.perm_singleton.1 h1
  | a :: b :: l, _, h2, h3 =>
    have := (List.pairwise_cons.1 h2).1 b (by simp)
    obtain ⟨a1, a2⟩ := equiv_iff.1 (h3 a (by simp))
    obtain ⟨b1, b2⟩ := equiv_iff.1 (h3 b (by simp))
    rw [equiv_iff.2 ⟨ho.negTrans b1 a2, ho.negTrans a1 b2⟩] at this
    cases this

theorem Lin.takes_spec {E : Lin κ} : ∀ (n : Nat) (us rest tail : List (κ × μ)), rest.length = n → ∃ ws,
    E.removeLoop 0 n (memOf (us ++ rest ++ tail)) us.length = some (memOf (us ++ E.takes us rest ++ ws), (us ++ E.takes us rest).length) ∧
      (us ++ E.takes us rest ++ ws).length = (us ++ rest ++ tail).length
  | 0, us, rest, tail, hn => by
    cases List.length_eq_zero_iff.1 hn
    exact ⟨tail, by rw [Lin.takes, List.append_nil]; rfl, by rw [Lin.takes]⟩
  | n + 1, us, [], tail, hn => by simp at hn
  | n + 1, us, e :: rest, tail, hn => by
    have hn' : rest.length = n := by simpa using hn
    have hv : memOf (us ++ e :: rest ++ tail) us.length = some e := by simp [memOf]
    have hs : Seg (memOf (us ++ e :: rest ++ tail)) 0 us := by
      have := memOf_seg (us ++ e :: rest ++ tail)
      rw [List.append_assoc] at this
      rw [List.append_assoc]
      exact (Mem.seg_append.1 this).1
    rw [Lin.removeLoop, hv]
    simp only [Option.bind_eq_bind, Option.bind_some]
    rw [any_of hs, Option.bind_some, Lin.takes]
    cases hany : us.any fun x => E.eq e.1 x.1 with
    | false =>
      simp only [Bool.false_eq_true, if_false]
      obtain ⟨ws, h1, h2⟩ := Lin.takes_spec (E := E) n (us ++ [e]) rest tail hn'
      simp only [List.append_assoc, List.singleton_append, List.length_append, List.length_singleton] at h1 h2
      refine ⟨ws, ?_, ?_⟩
      · simp only [List.append_assoc, List.cons_append, List.length_append]
        exact h1
      · simp only [List.length_append, List.length_cons] at h2 ⊢
        omega
    | true =>
      simp only [if_true]
      rcases List.eq_nil_or_concat' rest with rfl | ⟨mid, w, rfl⟩
      · cases hn'
        rw [if_pos (by simp)]
        exact ⟨e :: tail, by simp [Lin.takes], by simp [Lin.takes]⟩
      · rw [List.length_append, List.length_singleton] at hn'
        rw [if_neg (by omega)]
        have hw : memOf (us ++ e :: (mid ++ [w]) ++ tail) (us.length + (n + 1) - 1) = some w := by
          rw [show us.length + (n + 1) - 1 = us.length + (mid.length + 1) by omega]
          simp [memOf]
        rw [Mem.swapAt, hv, hw]
        rw [show (mid ++ [w]).getLast?.toList ++ (mid ++ [w]).dropLast = w :: mid by simp]
        simp only [Option.bind_some]
        obtain ⟨ws, h1, h2⟩ := Lin.takes_spec (E := E) n us (w :: mid) (e :: tail) (by simpa using hn')
        have hm : upd (upd (memOf (us ++ e :: (mid ++ [w]) ++ tail)) us.length (some w)) (us.length + (n + 1) - 1) (some e) = memOf (us ++ w :: mid ++ e :: tail) := by
          funext k
          rw [show us.length + (n + 1) - 1 = us.length + (mid.length + 1) by omega]
          simp only [upd, memOf]
          by_cases hk : k = us.length + (mid.length + 1)
          · subst hk; simp
          · rw [if_neg hk]
            by_cases hk' : k = us.length
            · subst hk'; simp
            · rw [if_neg hk']
              simp only [List.append_assoc, List.cons_append, List.nil_append, List.getElem?_append, List.getElem?_cons]
              grind
        rw [hm]
        refine ⟨ws, h1, ?_⟩
        rw [h2]; simp

theorem Lin.takes_unique {E : Lin κ} (h : Equivalence' E.eq) {xs : List (κ × μ)} (hu : E.Unique xs) (init : List (κ × μ)) : E.Inserted xs init (xs ++ E.takes xs init) := by
  obtain ⟨ys, e, hi⟩ := removeDuplicates_spec h hu (init := init)
  obtain ⟨ws, e', -⟩ := Lin.takes_spec (E := E) init.length xs init [] rfl
  rw [List.append_nil] at e'
  rw [Lin.removeDuplicates, List.length_append, Nat.add_sub_cancel_left, e'] at e
  simp only [Option.bind_eq_bind, Option.bind_some] at e
  rw [readBack_seg (Mem.seg_append.1 (memOf_seg (xs ++ E.takes xs init ++ ws))).1] at e
  cases e
  exact hi

theorem Inv.insertAll (hK : K.Ok) (init : List (κ × μ)) {xs : List (κ × μ)} (hi : K.Inv xs) : K.Inv (K.insertAll xs init) := by
  cases K with
  | flat C => exact Inv.insertEach hK init hi
  | multi C => exact Inv.insertEach hK init hi
  | linear E => exact (Lin.takes_unique hK hi init).unique

theorem mergeMultiOn_spec (hC : C.Ok) (hm : MergesBy C.elt C.merge) {h : Heap (κ × μ)} {o : O} {xs ys : List (κ × μ)} {cap : Nat} (r : L.Rep h o (xs ++ ys) cap)
    (hs : Sorted C.elt xs) (hn : C.Sortable ys) : ∃ h' o' ys' zs, mergeMultiOn I C h o xs.length = .ok (h', o') ∧ L.Rep h' o' zs cap ∧ Frame (I.own o) h (I.own o') h' ∧
      ys'.Perm ys ∧ IsStableSort C.elt (xs ++ ys') zs ∧ I.ptr o' = I.ptr o := by
  obtain ⟨h1, o1, ys', e1, r1, f1, -, so, p1⟩ := sortOn_spec (L := L) hC r hn
  obtain ⟨m', zs, e2, s, st, off⟩ := hm (memOf (xs ++ ys')) 0 xs ys' (memOf_seg _) hs so.sorted
  rw [Nat.zero_add, ← List.length_append] at e2
  have hl := st.perm.length_eq
  have hm : m' = fun k => zs[k]? := Containers.cells_of_seg (xs := xs ++ ys') (by intro a ha; rw [List.length_append]; omega) hl s off
  obtain ⟨r2, f2⟩ := Containers.Rep.put (ys := zs) r1 hl
  refine ⟨_, _, ys', zs, ?_, r2, f1.trans f2, so.perm, st, ((L.put_law _ r1.1.1).2.2.2.1).trans p1⟩
  simp only [mergeMultiOn, e1, Impl.rearrange, slots_memOf r1, size_of r1, e2, hm]

theorem removeDuplicatesOn_spec {E : Lin κ} {h : Heap (κ × μ)} {o : O} {xs ys : List (κ × μ)} {cap : Nat} (r : L.Rep h o (xs ++ ys) cap) (hf : Fresh h) :
    ∃ h' o', removeDuplicatesOn I mn E h o xs.length = .ok (h', o') ∧ L.Rep h' o' (xs ++ E.takes xs ys) cap ∧ Frame (I.own o) h (I.own o') h' ∧ I.ptr o' = I.ptr o := by
  obtain ⟨ws, e, hl⟩ := Lin.takes_spec (E := E) ys.length xs ys [] rfl
  rw [List.append_nil] at e hl
  obtain ⟨r2, f2⟩ := Containers.Rep.put (ys := xs ++ E.takes xs ys ++ ws) r hl
  have hp := (L.put_law (fun k => (xs ++ E.takes xs ys ++ ws)[k]?) r.1.1).2.2.2.1
  obtain ⟨h3, o3, e3, r3, f3, pr⟩ := good_step (L := L) r2 (f2.fresh hf) (.eraseToEnd (xs ++ E.takes xs ys).length) (by
    show (xs ++ E.takes xs ys).length ≤ (xs ++ E.takes xs ys ++ ws).length
    rw [List.length_append (bs := ws)]; omega)
  have hsz : (xs ++ ys).length - xs.length = ys.length := by rw [List.length_append]; omega
  refine ⟨h3, o3, ?_, by simpa only [GOp.spec, List.take_left] using r3, f2.trans f3, ?_⟩
  · rw [removeDuplicatesOn, slots_memOf r, size_of r, hsz, e]
    exact e3
  · rw [← hp]
    refine pr.1 ?_
    rw [r2.mem]; rfl

/-! ### The state of the program -/

/-- The storage stays where it is if the capacity does, and variables are only assigned iterators that can be used. -/
structure Stays (I : Impl (κ × μ) O) (c c' : CS (κ × μ) O) (a' : AS (κ × μ)) : Prop where
  ptr : PtrRule I c.h c.o c'.o a'.s.2
  vars : ∀ x, a'.pos x = none → c'.its x = c.its x

theorem Stays.of_ptr {c c' : CS (κ × μ) O} {a a' : AS (κ × μ)} (t : Tracks L c a) (hp : I.ptr c'.o = I.ptr c.o) (hc : a'.s.2 = a.s.2)
    (hv : ∀ x, a'.pos x = none → c'.its x = c.its x) : Stays I c c' a' := by
  refine ⟨⟨fun _ => hp, fun e ne => absurd ?_ ne⟩, hv⟩
  rw [t.rep.mem, ← hc, e]

theorem Stays.refl {c : CS (κ × μ) O} {a a' : AS (κ × μ)} (t : Tracks L c a) (hc : a'.s.2 = a.s.2) : Stays I c c a' := Stays.of_ptr t rfl hc fun _ _ => rfl

theorem Stays.set {c : CS (κ × μ) O} {a : AS (κ × μ)} (t : Tracks L c a) (y : Nat) (p : Addr) (k : Nat) : Stays I c (c.set y p) (a.set y k) :=
  Stays.of_ptr t rfl rfl fun x hx => by
    simp only [AS.set, CS.set] at hx ⊢
    split at hx
    · cases hx
    · rename_i hn; rw [if_neg hn]

/-- After an operation of the container. -/
theorem land_op {c : CS (κ × μ) O} {a : AS (κ × μ)} (t : Tracks L c a) {u : GOp (κ × μ)} (hp : u.pre L.cfg a.s) {g : Option Nat} {d : Done (Heap (κ × μ) × O)}
    (gd : GoodDone L c.h c.o d (u.spec L.cfg a.s) g) (hg : ∀ p, g = some p → (u.spec L.cfg a.s).2 = false → p ≤ (u.spec L.cfg a.s).1.1.length) (y : Nat) (b : Bool) :
    ∃ c', land c y (d, b) = some (resOp L.cfg u b a, c') ∧ Tracks L c' (afterOp L.cfg u g y a) ∧ Frame (I.own c.o) c.h (I.own c'.o) c'.h ∧
      Stays I c c' (afterOp L.cfg u g y a) := by
  obtain ⟨h', o', e, r', f, pr⟩ := gd
  have keep : ∀ z p, (a.pos z).filter (u.valid a.s (u.spec L.cfg a.s).2) = some p → c.its z = some (I.addr o' p) ∧ p ≤ (u.spec L.cfg a.s).1.1.length := by
    intro z p hz
    rw [Option.filter_eq_some_iff] at hz
    obtain ⟨h1, h2⟩ := hz
    obtain ⟨h3, h4⟩ := t.vars z p h1
    obtain ⟨k1, k2⟩ := Containers.spec_keeps (q := L.cfg) (xs := a.s.1) (cap := a.s.2) t.rep.2 (.inl hp) h2
    refine ⟨?_, k2 h4⟩
    rw [h3]
    have := pr.1 (k1.trans (by rw [t.rep.mem]))
    simp only [Impl.addr, this]
  cases hb : (u.spec L.cfg a.s).2 with
  | true =>
    rw [hb] at e
    refine ⟨{ c with h := h', o := o' }, by rw [e]; simp only [if_true, land, resOp, hb], ⟨r', f.fresh t.fresh, fun z p hz => ?_⟩, f, pr, fun _ _ => rfl⟩
    simp only [afterOp] at hz
    rw [if_neg (by simp [hb])] at hz
    exact keep z p hz
  | false =>
    rw [hb] at e
    cases g with
    | none =>
      refine ⟨{ c with h := h', o := o' }, by rw [e]; simp only [Bool.false_eq_true, if_false, land, resOp, hb, Option.map_none], ⟨r', f.fresh t.fresh, fun z p hz => ?_⟩, f, pr, fun _ _ => rfl⟩
      simp only [afterOp] at hz
      rw [if_neg (by simp)] at hz
      exact keep z p hz
    | some p =>
      refine ⟨CS.set { c with h := h', o := o' } y (I.addr o' p), by rw [e]; simp only [Bool.false_eq_true, if_false, land, resOp, hb, Option.map_some],
        ⟨r', f.fresh t.fresh, fun z j hz => ?_⟩, f, pr, fun z hz => ?_⟩
      rotate_left
      · simp only [afterOp] at hz
        simp only [CS.set]
        by_cases hzy : z = y
        · rw [if_pos ⟨hzy, hb, rfl⟩] at hz; cases hz
        · rw [if_neg hzy]
      simp only [afterOp] at hz
      simp only [CS.set]
      by_cases hzy : z = y
      · rw [if_pos ⟨hzy, hb, rfl⟩, Option.some.injEq] at hz
        subst hz
        rw [if_pos hzy]
        exact ⟨rfl, hg _ rfl hb⟩
      · rw [if_neg (fun q => hzy q.1)] at hz
        rw [if_neg hzy]
        exact keep z j hz

theorem setMapped_good {c : CS (κ × μ) O} {a : AS (κ × μ)} (t : Tracks L c a) {p : Nat} (hp : p < a.s.1.length) (v : μ) :
    ∃ c', setMapped I c p v = some c' ∧ Tracks L c' { a with s := (setAt a.s.1 p v, a.s.2) } ∧ Frame (I.own c.o) c.h (I.own c'.o) c'.h ∧
      Stays I c c' { a with s := (setAt a.s.1 p v, a.s.2) } := by
  obtain ⟨s, e, t', f⟩ := t.assign hp (a.s.1[p].1, v)
  have hptr : I.ptr s.2 = I.ptr c.o := by
    have e' := e
    simp only [Impl.assignAt] at e'
    split at e'
    · cases e'
    · cases e'; exact (L.put_law _ t.rep.1.1).2.2.2.1
  refine ⟨{ c with h := s.1, o := s.2 }, ?_, ?_, f, Stays.of_ptr t hptr rfl fun _ _ => rfl⟩
  · simp only [setMapped, slots_memOf t.rep, memOf, List.getElem?_eq_getElem hp, e, Option.map_some]
  · rw [setAt_set hp]; exact t'

/-- One look. -/
theorem MLook.good (hK : K.Ok) {c : CS (κ × μ) O} {a : AS (κ × μ)} (t : Tracks L c a) (hi : K.Inv a.s.1) (l : MLook κ μ) (hp : l.Pre K a) :
    ∃ x a' c', l.mean K a = some (x, a') ∧ l.run I K c = some (x, c') ∧ Tracks L c' a' ∧ K.Inv a'.s.1 ∧ Frame (I.own c.o) c.h (I.own c'.o) c'.h ∧ Stays I c c' a' := by
  have hs : I.size c.o = a.s.1.length := size_of t.rep
  have fr : Frame (I.own c.o) c.h (I.own c.o) c.h := Frame.refl _ _
  cases l with
  | first x => exact ⟨_, _, _, rfl, rfl, t.set x (Nat.zero_le _), hi, fr, Stays.set t _ _ _⟩
  | last x => exact ⟨_, _, _, rfl, by simp only [MLook.run, hs], t.set x (Nat.le_refl _), hi, fr, Stays.set t _ _ _⟩
  | move x d y =>
    obtain ⟨k, h1, h2, h3⟩ := hp
    have hr := t.rep.2
    refine ⟨_, _, _, by simp only [MLook.mean, h1, Option.map_some]; rfl, ?_, t.set y (p := ((k : Int) + d).toNat) (by omega), hi, fr, Stays.set t _ _ _⟩
    simp only [MLook.run, t.vars.at_ h1, t.rep.mem]
    rw [if_pos (by omega)]
  | diff x y =>
    obtain ⟨h1, h2⟩ := hp
    obtain ⟨k, h1⟩ := Option.isSome_iff_exists.1 h1
    obtain ⟨j, h2⟩ := Option.isSome_iff_exists.1 h2
    exact ⟨_, _, c, by simp only [MLook.mean, h1, h2, Option.bind_some, Option.map_some]; rfl, by simp only [MLook.run, t.vars.at_ h1, t.vars.at_ h2], t, hi, fr, Stays.refl t rfl⟩
  | deref x =>
    obtain ⟨k, h1, h2⟩ := hp
    exact ⟨_, _, c, by simp only [MLook.mean, h1, List.getElem?_eq_getElem h2, Option.bind_some, Option.map_some]; rfl,
      by simp only [MLook.run, (t.vars x k h1).1, Containers.deref_addr t.rep, List.getElem?_eq_getElem h2, Option.map_some], t, hi, fr, Stays.refl t rfl⟩
  | write x v =>
    obtain ⟨k, h1, h2⟩ := hp
    obtain ⟨c', e, t', f, st⟩ := setMapped_good t h2 v
    exact ⟨_, _, c', by simp only [MLook.mean, h1, Option.map_some]; rfl, by simp only [MLook.run, t.vars.at_ h1, e, Option.map_some], t', Inv.keys (setAt_keys _ _ _) hi, f, st⟩
  | find k y =>
    exact ⟨_, _, _, rfl, by simp only [MLook.run, Kind.findOn_eq hK t.rep hi hp k, Option.map_some], t.set y (K.index_le _ _), hi, fr, Stays.set t _ _ _⟩
  | lower k y =>
    obtain ⟨C, hC, ho, hso⟩ := Inv.sorted hK hi hp
    have e : lowerBound (I.slots c.h c.o) (fun e k => C.lt e.1 k) 0 (I.size c.o) k = some (a.s.1.countP fun e => C.lt e.1 k) := by
      rw [slots_memOf t.rep, size_of t.rep]; exact keyedLowerBound_eq ho hso k
    rcases hC with rfl | rfl <;>
      exact ⟨_, _, _, rfl, by simp only [MLook.run, Kind.lowerOn, e, Option.map_some], t.set y List.countP_le_length, hi, fr, Stays.set t _ _ _⟩
  | upper k y =>
    obtain ⟨C, hC, ho, hso⟩ := Inv.sorted hK hi hp
    have e : Maps.upperOn I C c.h c.o k = _ := (upperOn_eq t.rep k).trans (keyedUpperBound_eq ho hso k)
    rcases hC with rfl | rfl <;>
      exact ⟨_, _, _, rfl, by simp only [MLook.run, Kind.upperOn, e, Option.map_some], t.set y List.countP_le_length, hi, fr, Stays.set t _ _ _⟩
  | lookup k =>
    have e := Kind.findOn_eq hK t.rep hi hp k
    refine ⟨_, _, c, rfl, ?_, t, hi, fr, Stays.refl t rfl⟩
    simp only [MLook.run, e, hs, slots_memOf t.rep]
    by_cases hx : K.index a.s.1 k = a.s.1.length
    · rw [if_neg (by simpa using hx)]
      have : (a.s.1.find? fun e => K.same k e.1) = none := by
        rw [List.find?_eq_none]
        intro x hm
        have := List.findIdx_eq_length.1 hx x hm
        simpa using this
      rw [this]; rfl
    · rw [if_pos hx]
      have hlt : K.index a.s.1 k < a.s.1.length := Nat.lt_of_le_of_ne (K.index_le _ _) hx
      have : (a.s.1.find? fun e => K.same k e.1) = some (a.s.1[K.index a.s.1 k]) := by
        rw [List.find?_eq_some_iff_getElem]
        refine ⟨List.findIdx_getElem (w := hlt), _, hlt, rfl, fun j hj => ?_⟩
        have := List.not_of_lt_findIdx hj
        simpa using this
      rw [this]
      simp only [memOf, List.getElem?_eq_getElem hlt, Option.map_some]
  | update k v =>
    have e := Kind.findOn_eq hK t.rep hi hp k
    by_cases hx : K.index a.s.1 k = a.s.1.length
    · refine ⟨_, _, c, rfl, ?_, ?_, Inv.keys (setAt_keys _ _ _) hi, fr, Stays.refl t rfl⟩
      · simp only [MLook.run, e, hs]
        rw [if_neg (by simpa using hx)]
      · rw [setAt_out (Nat.le_of_eq hx.symm)]; exact t
    · have hlt : K.index a.s.1 k < a.s.1.length := Nat.lt_of_le_of_ne (K.index_le _ _) hx
      obtain ⟨c', e', t', f, st⟩ := setMapped_good t hlt v
      refine ⟨_, _, c', rfl, ?_, t', Inv.keys (setAt_keys _ _ _) hi, f, st⟩
      simp only [MLook.run, e, hs]
      rw [if_pos hx, e']; rfl
  | size => exact ⟨_, _, c, rfl, by simp only [MLook.run, hs], t, hi, fr, Stays.refl t rfl⟩
  | capacity => exact ⟨_, _, c, rfl, by simp only [MLook.run, t.rep.view.cap, Option.map_some], t, hi, fr, Stays.refl t rfl⟩
  | iterate => exact ⟨_, _, c, rfl, by simp only [MLook.run, Containers.Rep.iterate t.rep, Option.map_some], t, hi, fr, Stays.refl t rfl⟩

/-- One call. -/
theorem MCall.good (hK : K.Ok) {c : CS (κ × μ) O} {a : AS (κ × μ)} (t : Tracks L c a) (hi : K.Inv a.s.1) (m : MCall κ μ) (hp : m.Pre K L.cfg a) (y : Nat) :
    ∃ x a' c', m.mean K L.cfg y a = some (x, a') ∧ land c y (m.run I mn K c) = some (x, c') ∧ Tracks L c' a' ∧ K.Inv a'.s.1 ∧
      Frame (I.own c.o) c.h (I.own c'.o) c'.h ∧ Stays I c c' a' := by
  cases m with
  | insert k v th al =>
    obtain ⟨g1, g2⟩ := insert_good (L := L) hK t.rep t.fresh hi k v th al hp
    cases hh : K.has a.s.1 k with
    | true =>
      refine ⟨_, _, _, by simp only [MCall.mean, hh, if_true]; rfl, by simp only [MCall.run, g1 hh, land], t.set y (K.index_le _ _), hi, Frame.refl _ _, Stays.set t _ _ _⟩
    | false =>
      obtain ⟨d, e, gd⟩ := g2 hh
      have hpre : (K.adds a.s.1 k v th al).pre L.cfg a.s := by
        cases hKk : K with
        | flat C => exact ⟨place_le _ _ _, fun hh => by cases hh⟩
        | multi C => exact ⟨place_le _ _ _, fun hh => by cases hh⟩
        | linear E => exact hp E hKk hh
      have hseq : (K.adds a.s.1 k v th al).seq a.s.1 = a.s.1.take (K.place a.s.1 k) ++ (k, v) :: a.s.1.drop (K.place a.s.1 k) := by
        cases K <;> simp [Kind.adds, GOp.seq, Kind.place]
      have hstrong : (K.adds a.s.1 k v th al).strong = true := by cases K <;> rfl
      obtain ⟨c', e', t', f, sy⟩ := land_op t hpre gd (fun p hp' hb => by
        cases hp'
        rw [Containers.GOp.spec_seq hb, hseq, List.length_append, List.length_take]
        have := place_le K a.s.1 k
        omega) y true
      refine ⟨_, _, c', by simp only [MCall.mean, hh, Bool.false_eq_true, if_false]; rfl, by simp only [MCall.run, e]; exact e', t', ?_, f, sy⟩
      show K.Inv ((K.adds a.s.1 k v th al).spec L.cfg a.s).1.1
      cases hb : ((K.adds a.s.1 k v th al).spec L.cfg a.s).2 with
      | true => rw [Containers.spec_strong _ hstrong hb]; exact hi
      | false => rw [Containers.GOp.spec_seq hb, hseq]; exact Inv.insert hK hi hh v
  | insertRange init left al =>
    obtain ⟨h1, h2⟩ := hp
    obtain ⟨h', o', e, r', f, pr⟩ := good_step (L := L) t.rep t.fresh (.append init al) h1
    cases hb : ((GOp.append init al).spec L.cfg a.s).2 with
    | true =>
      have hsp := Containers.spec_strong (q := L.cfg) (s := a.s) (.append init al) rfl hb
      have hb' : ((GOp.append init al).spec L.cfg (a.s.1, a.s.2)).2 = true := hb
      have hsp' : ((GOp.append init al).spec L.cfg (a.s.1, a.s.2)).1 = a.s := hsp
      rw [hb'] at e
      rw [hsp'] at r' pr
      refine ⟨.threw, a, { c with h := h', o := o' }, ?_, ?_, ⟨r', f.fresh t.fresh, fun z p hz => ?_⟩, hi, f, pr, fun _ _ => rfl⟩
      · simp only [MCall.mean, resOp, hb, if_true]
      · simp only [MCall.run, Kind.insertRangeOn, e, Out.of_true, Containers.doneOf, land]
      · obtain ⟨g1, g2⟩ := t.vars z p hz
        refine ⟨?_, g2⟩
        rw [g1]; have := pr.1 (by rw [t.rep.mem]); simp only [Impl.addr, this]
    | false =>
      have hb' : ((GOp.append init al).spec L.cfg (a.s.1, a.s.2)).2 = false := hb
      rw [hb'] at e
      have hsq : ((GOp.append init al).spec L.cfg (a.s.1, a.s.2)).1.1 = a.s.1 ++ init.map (·.val) := Containers.GOp.spec_seq hb
      rw [hsq] at r'
      have fin : ∀ {h2' : Heap (κ × μ)} {o2 : O}, K.insertRangeOn I mn left c.h c.o init al = .ok (h2', o2) →
          L.Rep h2' o2 (K.insertAll a.s.1 (init.map (·.val))) ((GOp.append init al).spec L.cfg (a.s.1, a.s.2)).1.2 → Frame (I.own o') h' (I.own o2) h2' →
          I.ptr o2 = I.ptr o' → (∀ E, K = .linear E → a.s.1.length ≤ (K.insertAll a.s.1 (init.map (·.val))).length) →
          ∃ x a' c', MCall.mean K L.cfg y a (.insertRange init left al) = some (x, a') ∧ land c y (MCall.run I mn K c (.insertRange init left al)) = some (x, c') ∧
            Tracks L c' a' ∧ K.Inv a'.s.1 ∧ Frame (I.own c.o) c.h (I.own c'.o) c'.h ∧ Stays I c c' a' := by
        intro h2' o2 e2 r2 f2 p1 hlin
        refine ⟨.done false, ⟨(K.insertAll a.s.1 (init.map (·.val)), ((GOp.append init al).spec L.cfg a.s).1.2), K.afterRange (.append init al) a⟩,
          { c with h := h2', o := o2 }, ?_, ?_, ⟨r2, f2.fresh (f.fresh t.fresh), fun z p hz => ?_⟩, Inv.insertAll hK _ hi, f.trans f2, ?_, fun _ _ => rfl⟩
        · simp only [MCall.mean, resOp, hb, Bool.false_eq_true, if_false]
        · simp only [MCall.run, e2, Containers.doneOf, land]
        · cases hKk : K with
          | flat C => rw [hKk] at hz; cases hz
          | multi C => rw [hKk] at hz; cases hz
          | linear E =>
            have p2 := hlin E hKk
            rw [hKk] at hz p2
            have hz : (a.pos z).filter ((GOp.append init al).valid a.s false) = some p := hz
            rw [Option.filter_eq_some_iff, ← hb] at hz
            obtain ⟨z1, z2⟩ := hz
            obtain ⟨g1, g2⟩ := t.vars z p z1
            obtain ⟨k1, -⟩ := Containers.spec_keeps (q := L.cfg) (xs := a.s.1) (cap := a.s.2) t.rep.2 (u := .append init al) (.inl h1) z2
            refine ⟨?_, Nat.le_trans g2 p2⟩
            have := pr.1 (k1.trans (by rw [t.rep.mem]))
            rw [g1]; simp only [Impl.addr, p1, this]
        · refine ⟨fun e => p1.trans (pr.1 e), fun e ne => p1.trans (pr.2 e ne)⟩
      cases K with
      | flat C =>
        have hi : a.s.1.Pairwise fun x y => C.lt x.1 y.1 = true := hi
        obtain ⟨h2, h3⟩ := h2 C (.inl rfl)
        obtain ⟨h2', o2, zs, e2, r2, f2, e3, p3⟩ := mergeOn_spec (L := L) (mn := mn) hK.1 hK.2 left r' (f.fresh t.fresh) hi h2
        obtain ⟨ys', zs', e4, hperm, hu⟩ := hK.1.merge hK.2 hi h2
        rw [e3] at e4
        cases e4
        have hz : zs = (Kind.flat C).insertAll a.s.1 (init.map (·.val)) := merged_insertEach hK.1 hi h3 hK.2 hperm hu
        exact fin (by simp only [Kind.insertRangeOn, e, Out.of_false, size_of t.rep, e2]) (by rw [← hz]; exact r2) f2 p3 (fun E hE => by cases hE)
      | multi C =>
        have ho := hK.1.order
        obtain ⟨h2, h3⟩ := h2 C (.inr rfl)
        obtain ⟨h2', o2, ys', zs, e2, r2, f2, hperm, st, p3⟩ := mergeMultiOn_spec (L := L) hK.1 hK.2 r' hi h2
        have hz : zs = (Kind.multi C).insertAll a.s.1 (init.map (·.val)) := by
          refine IsStableSort.unique (hK.1.elt_order) (stable_of_perm hK.1.elt_order hperm (h3.imp fun {x y} hn => ?_) st) (insertEach_stable ho _ hi)
          by_contra hc
          exact hn (equiv_iff (lt := C.elt).1 (by simpa using hc))
        exact fin (by simp only [Kind.insertRangeOn, e, Out.of_false, size_of t.rep, e2]) (by rw [← hz]; exact r2) f2 p3 (fun E hE => by cases hE)
      | linear E =>
        obtain ⟨h2', o2, e2, r2, f2, p2⟩ := removeDuplicatesOn_spec (L := L) (mn := mn) (E := E) r' (f.fresh t.fresh)
        exact fin (by simp only [Kind.insertRangeOn, e, Out.of_false, size_of t.rep, e2]) r2 f2 p2 (fun _ _ => by
          show a.s.1.length ≤ (a.s.1 ++ E.takes a.s.1 (init.map (·.val))).length
          rw [List.length_append]; omega)
  | erase x =>
    obtain ⟨p, h1, h2⟩ := hp
    have hpre : (GOp.erase p (p + 1) : GOp (κ × μ)).pre L.cfg a.s := ⟨Nat.le_succ p, h2⟩
    have gd : GoodDone L c.h c.o (I.eraseRet c.h c.o p (p + 1)).done ((GOp.erase p (p + 1)).spec L.cfg a.s) (some p) := by
      refine Containers.goodDone_ret ?_ fun s' b e => ?_
      · rw [I.eraseRet_forget]; exact good_erase t.rep hpre.1 hpre.2
      · obtain ⟨h', o', e', _⟩ := Containers.C62_erase t.rep hpre.1 hpre.2
        rw [e'] at e; cases e; rfl
    obtain ⟨c', e', t', f, sy⟩ := land_op t hpre gd (fun q hq _ => by
      cases hq
      simp only [GOp.spec, List.length_append, List.length_take]; omega) y false
    refine ⟨_, _, c', by simp only [MCall.mean, h1, Option.map_some]; rfl, by simp only [MCall.run, t.vars.at_ h1]; exact e', t', ?_, f, sy⟩
    refine Inv.sub ?_ hi
    show (a.s.1.take p ++ a.s.1.drop (p + 1)).Sublist a.s.1
    exact (List.Sublist.append (List.Sublist.refl _) (List.drop_sublist_drop_left _ (Nat.le_succ p))).trans (by rw [List.take_append_drop])
  | eraseRange x x' =>
    obtain ⟨p, q, h1, h2, h3, h4⟩ := hp
    have hpre : (GOp.erase p q : GOp (κ × μ)).pre L.cfg a.s := ⟨h3, h4⟩
    have gd : GoodDone L c.h c.o (I.eraseRet c.h c.o p q).done ((GOp.erase p q).spec L.cfg a.s) (some p) := by
      refine Containers.goodDone_ret ?_ fun s' b e => ?_
      · rw [I.eraseRet_forget]; exact good_erase t.rep hpre.1 hpre.2
      · obtain ⟨h', o', e', _⟩ := Containers.C62_erase t.rep hpre.1 hpre.2
        rw [e'] at e; cases e; rfl
    obtain ⟨c', e', t', f, sy⟩ := land_op t hpre gd (fun z hq _ => by
      cases hq
      simp only [GOp.spec, List.length_append, List.length_take]; omega) y false
    refine ⟨_, _, c', by simp only [MCall.mean, h1, h2, Option.map_some, Option.bind_some]; rfl, by simp only [MCall.run, t.vars.at_ h1, t.vars.at_ h2]; exact e', t', ?_, f, sy⟩
    refine Inv.sub ?_ hi
    show (a.s.1.take p ++ a.s.1.drop q).Sublist a.s.1
    exact (List.Sublist.append (List.Sublist.refl _) (List.drop_sublist_drop_left _ h3)).trans (by rw [List.take_append_drop])
  | eraseIf p mv =>
    have gd : GoodDone L c.h c.o (Containers.doneOf (I.step mn c.h c.o (.eraseIf p mv))) ((GOp.eraseIf p mv).spec L.cfg a.s) none :=
      Containers.goodDone_of (good_step (L := L) t.rep t.fresh (.eraseIf p mv) trivial)
    obtain ⟨c', e', t', f, sy⟩ := land_op t (show (GOp.eraseIf p mv).pre L.cfg a.s from trivial) gd (fun z hq _ => by cases hq) y false
    refine ⟨_, _, c', rfl, ?_, t', Inv.sub (List.filter_sublist) hi, f, sy⟩
    have hrun : MCall.run I mn K c (.eraseIf p mv) = (Containers.doneOf (I.step mn c.h c.o (.eraseIf p mv)), false) := by
      cases hKk : K with
      | flat C => rfl
      | multi C => rfl
      | linear E => exact absurd hKk (hp E)
    rw [hrun]; exact e'
  | reserve n fl =>
    have gd : GoodDone L c.h c.o (Containers.doneOf (I.step mn c.h c.o (.reserve n fl))) ((GOp.reserve n fl).spec L.cfg a.s) none :=
      Containers.goodDone_of (good_step (L := L) t.rep t.fresh (.reserve n fl) hp)
    obtain ⟨c', e', t', f, sy⟩ := land_op t (show (GOp.reserve n fl : GOp (κ × μ)).pre L.cfg a.s from hp) gd (fun z hq _ => by cases hq) y false
    refine ⟨_, _, c', rfl, e', t', ?_, f, sy⟩
    show K.Inv ((GOp.reserve n fl : GOp (κ × μ)).spec L.cfg a.s).1.1
    simp only [GOp.spec]
    split_ifs <;> exact hi

/-- C106: a program that searches a map, inserts, erases, and keeps and uses iterators of it as long as they are valid is defined; everything it reads, which
calls throw and every iterator it is given are as for a sequence of elements in the order of their keys (or, for a linear map, in the order in which
they were inserted) with positions. This is so on every container, whatever throws and whatever allocation fails, and nothing else in memory is touched.
What is missing: `insert` of a range with equal keys or that cannot be sorted into a sorted map, `erase_if` of a linear map (it has none), and
insertions into a full linear map whose capacity cannot be doubled (`C26_push_back_violated`), which are undefined. -/
theorem C106_program_partial (hK : K.Ok) : ∀ (P : MProg κ μ R) {c : CS (κ × μ) O} {a : AS (κ × μ)}, Tracks L c a → K.Inv a.s.1 → P.Pre K L.cfg a →
    ∃ r a' c', P.mean K L.cfg a = some (r, a') ∧ P.run I mn K c = some (r, c') ∧ Tracks L c' a' ∧ K.Inv a'.s.1 ∧ Frame (I.own c.o) c.h (I.own c'.o) c'.h
  | .ret r, c, a, t, hi, _ => ⟨r, a, c, rfl, rfl, t, hi, Frame.refl _ _⟩
  | .look l k, c, a, t, hi, ⟨h1, h2⟩ => by
    obtain ⟨x, a1, c1, e1, e2, t1, i1, f1, -⟩ := MLook.good hK t hi l h1
    obtain ⟨r, a2, c2, e3, e4, t2, i2, f2⟩ := C106_program_partial hK (k x) t1 i1 (h2 _ e1)
    exact ⟨r, a2, c2, by simp only [MProg.mean, e1, Option.bind_some, e3], by simp only [MProg.run, e2, e4], t2, i2, f1.trans f2⟩
  | .call m y k, c, a, t, hi, ⟨h1, h2⟩ => by
    obtain ⟨x, a1, c1, e1, e2, t1, i1, f1, -⟩ := MCall.good (mn := mn) hK t hi m h1 y
    obtain ⟨r, a2, c2, e3, e4, t2, i2, f2⟩ := C106_program_partial hK (k x) t1 i1 (h2 _ e1)
    exact ⟨r, a2, c2, by simp only [MProg.mean, e1, Option.bind_some, e3], by simp only [MProg.run, e2, e4], t2, i2, f1.trans f2⟩

/-- C106 for a `flat_map` (or a `flat_multimap` or a `linear_map`) from the beginning: an empty map without memory, and no iterators. -/
theorem C106_empty_map_partial (hK : K.Ok) {mx : Nat} (P : MProg κ μ R) {h : Heap (κ × μ)} (hf : Fresh h)
    (hp : P.Pre K (Containers.Vec.lawful (V := κ × μ) 0 mx (Nat.zero_le _)).cfg ⟨([], 0), fun _ => none⟩) :
    ∃ r a c, P.mean K (Containers.Vec.lawful (V := κ × μ) 0 mx (Nat.zero_le _)).cfg ⟨([], 0), fun _ => none⟩ = some (r, a) ∧
      P.run (Containers.vec (κ × μ) 0 mx) 0 K ⟨h, { ptr := none, cap := 0, size := 0 }, fun _ => none⟩ = some (r, c) ∧
      (Containers.Vec.lawful (V := κ × μ) 0 mx (Nat.zero_le _)).Rep c.h c.o a.s.1 a.s.2 ∧ K.Inv a.s.1 := by
  obtain ⟨r, a, c, e1, e2, t, i, -⟩ := C106_program_partial (L := Containers.Vec.lawful (V := κ × μ) 0 mx (Nat.zero_le _)) hK P
    (c := ⟨h, { ptr := none, cap := 0, size := 0 }, fun _ => none⟩) (a := ⟨([], 0), fun _ => none⟩)
    ⟨⟨⟨.inl ⟨rfl, rfl, rfl⟩, rfl, rfl⟩, Nat.le_refl 0⟩, hf, fun x p hx => by cases hx⟩ (by cases K <;> exact List.Pairwise.nil) hp
  exact ⟨r, a, c, e1, e2, t.rep, i⟩

/-- C106 for a `static_flat_map` or `static_linear_map` from the beginning. -/
theorem C106_empty_static_map_partial (hK : K.Ok) {N : Nat} (P : MProg κ μ R) {h : Heap (κ × μ)} (hf : Fresh h)
    (hp : P.Pre K (Containers.Stat.lawful (V := κ × μ) N).cfg ⟨([], N), fun _ => none⟩) :
    ∃ r a c, P.mean K (Containers.Stat.lawful (V := κ × μ) N).cfg ⟨([], N), fun _ => none⟩ = some (r, a) ∧
      P.run (Containers.stat (κ × μ) N) N K ⟨h, ⟨fun _ => none, 0⟩, fun _ => none⟩ = some (r, c) ∧
      (Containers.Stat.lawful (V := κ × μ) N).Rep c.h c.o a.s.1 a.s.2 ∧ K.Inv a.s.1 := by
  obtain ⟨r, a, c, e1, e2, t, i, -⟩ := C106_program_partial (L := Containers.Stat.lawful (V := κ × μ) N) hK P
    (c := ⟨h, ⟨fun _ => none, 0⟩, fun _ => none⟩) (a := ⟨([], N), fun _ => none⟩)
    ⟨Containers.Stat.empty_rep _, hf, fun x p hx => by cases hx⟩ (by cases K <;> exact List.Pairwise.nil) hp
  exact ⟨r, a, c, e1, e2, t.rep, i⟩

/-! ## In terms of keys -/

/-- An iterator to an element is still an iterator to that element after `insert` of a greater key into a `flat_map` that has room, whether the key is new or not and
even if `insert` throws. -/
theorem C106_insert_keeps {c : CS (κ × μ) O} {a : AS (κ × μ)} (hK : (Kind.flat C).Ok) (t : Tracks L c a) (hi : (Kind.flat C).Inv a.s.1) {x p y : Nat} (hx : a.pos x = some p)
    {e : κ × μ} (he : a.s.1[p]? = some e) {k : κ} (hk : C.lt e.1 k = true) (hroom : a.s.1.length < a.s.2) (hxy : x ≠ y) (v : μ) (th : Bool) (al : Nat → Bool) :
    ∃ r c' ad, land c y (MCall.run I mn (.flat C) c (.insert k v th al)) = some (r, c') ∧ c'.its x = some ad ∧ c.its x = some ad ∧ I.deref c'.h c'.o ad = some e := by
  have ho := hK.1.order
  have hin : a.s.1.Pairwise fun x y => C.lt x.1 y.1 = true := hi
  obtain ⟨r, a', c', e1, e2, t', i', -⟩ := MCall.good (mn := mn) hK t hi (.insert k v th al) (fun E hE => by cases hE) y
  obtain ⟨hlt, hget⟩ := List.getElem?_eq_some_iff.1 he
  have hpp : p < (Kind.flat C).place a.s.1 k := by
    have := (partitioned_lt ho (sorted_of_increasing ho hin) k).getElem_iff hlt
    exact this.1 (by rw [hget]; exact hk)
  have hpos : a'.pos x = some p ∧ a'.s.1[p]? = some e := by
    simp only [MCall.mean] at e1
    split at e1
    · cases e1
      exact ⟨by simp only [AS.set, if_neg hxy, hx], he⟩
    · cases e1
      have hpre : (GOp.insert ((Kind.flat C).place a.s.1 k) [⟨(k, v), th⟩] al).pre L.cfg a.s := ⟨place_le _ _ _, fun hh => by cases hh⟩
      obtain ⟨q1, q2⟩ := Containers.spec_room (q := L.cfg) t.rep.2 (.insert ((Kind.flat C).place a.s.1 k) [⟨(k, v), th⟩] al) hpre rfl hroom
      refine ⟨?_, (q2 p hpp).trans he⟩
      simp only [afterOp, if_neg (fun q : x = y ∧ _ => hxy q.1), hx]
      rw [Option.filter_eq_some_iff]
      refine ⟨rfl, ?_⟩
      simp only [GOp.valid, Kind.adds, Bool.or_eq_true, Bool.and_eq_true, decide_eq_true_eq]
      exact .inr ⟨⟨rfl, decide_eq_true hroom⟩, decide_eq_true hpp⟩
  obtain ⟨g1, -⟩ := t'.vars x p hpos.1
  have g2 : c.its x = c'.its x := by
    simp only [MCall.run] at e2
    cases hd : (Kind.flat C).insertOn I c.h c.o k v th al with
    | mk d b =>
      rw [hd] at e2
      cases d with
      | ok s ad =>
        cases ad <;> simp only [land, Option.some.injEq, Prod.mk.injEq] at e2 <;> rw [← e2.2]
        simp only [CS.set, if_neg hxy]
      | exn s => simp only [land, Option.some.injEq, Prod.mk.injEq] at e2; rw [← e2.2]
      | ub => cases e2
  exact ⟨r, c', _, e2, g1, g2.trans g1, by rw [Containers.deref_addr t'.rep]; exact hpos.2⟩

/-- `insert` of a key that a `flat_map` or `linear_map` has changes nothing and makes no iterator invalid, does not make an element or allocate memory (it does not matter if that
would throw), and returns an iterator to an element with that key. -/
theorem C106_old_key (hK : K.Ok) {c : CS (κ × μ) O} {a : AS (κ × μ)} (t : Tracks L c a) (hi : K.Inv a.s.1) {k : κ} {e : κ × μ} (he : e ∈ a.s.1) (hs : K.same k e.1 = true)
    (hm : ∀ C, K ≠ .multi C) (y : Nat) (v : μ) (th : Bool) (al : Nat → Bool) :
    ∃ ad e', land c y (MCall.run I mn K c (.insert k v th al)) = some (.done false, c.set y ad) ∧ I.deref c.h c.o ad = some e' ∧ e' ∈ a.s.1 ∧ K.same k e'.1 = true := by
  have hh : K.has a.s.1 k = true := by
    cases K with
    | multi C => exact absurd rfl (hm C)
    | flat C => exact List.any_eq_true.2 ⟨e, he, hs⟩
    | linear E => exact List.any_eq_true.2 ⟨e, he, hs⟩
  have hix : K.index a.s.1 k < a.s.1.length := List.findIdx_lt_length_of_exists ⟨e, he, hs⟩
  have g := (insert_good (I := I) hK t.rep t.fresh hi k v th al (fun _ _ h => by rw [hh] at h; cases h)).1 hh
  refine ⟨I.addr c.o (K.index a.s.1 k), a.s.1[K.index a.s.1 k], by rw [MCall.run, g]; rfl, ?_, List.getElem_mem _, List.findIdx_getElem (w := hix)⟩
  rw [Containers.deref_addr t.rep, List.getElem?_eq_getElem hix]

/-- Elements with new and different keys are all added to a linear map, in their order. -/
theorem Lin.takes_new {E : Lin κ} (hq : Equivalence' E.eq) : ∀ (init : List (κ × μ)) {xs : List (κ × μ)}, (∀ x ∈ xs, ∀ e ∈ init, E.eq x.1 e.1 = false) →
    (init.Pairwise fun x y => E.eq x.1 y.1 = false) → E.takes xs init = init
  | [], xs, _, _ => by rw [Lin.takes]
  | e :: init, xs, hn, hd => by
    rw [Lin.takes]
    have hany : (xs.any fun x => E.eq e.1 x.1) = false := by
      rw [List.any_eq_false]
      intro x hx hc
      have := hn x hx e (by simp)
      rw [hq.symm _ _ hc] at this; cases this
    rw [hany]
    simp only [Bool.false_eq_true, if_false]
    rw [Lin.takes_new hq init ?_ (List.pairwise_cons.1 hd).2]
    intro x hx y hy
    rcases List.mem_append.1 hx with hx | hx
    · exact hn x hx y (List.mem_cons_of_mem _ hy)
    · rw [List.mem_singleton.1 hx]; exact (List.pairwise_cons.1 hd).1 y hy

/-- `insert` of a range into a linear map with room for it: an iterator to an element is still one to that element, whatever the keys of the range are and even if it throws.
If it does not throw, the elements that were there are followed by elements of the range with other keys, and every key of the range is there; if its keys are new and different they are
all there, in their order. -/
theorem C106_linear_range {E : Lin κ} (hK : (Kind.linear E : Kind κ μ).Ok) {c : CS (κ × μ) O} {a : AS (κ × μ)} (t : Tracks L c a) (hi : (Kind.linear E).Inv a.s.1) {init : List (Item (κ × μ))}
    (hroom : a.s.1.length + init.length ≤ a.s.2) (left : κ × μ) (al : Nat → Bool) (y : Nat) :
    ∃ r c' zs, land c y (MCall.run I mn (.linear E) c (.insertRange init left al)) = some (r, c') ∧ L.Rep c'.h c'.o zs a.s.2 ∧
      (∀ x p e, a.pos x = some p → a.s.1[p]? = some e → ∃ ad, c.its x = some ad ∧ c'.its x = some ad ∧ I.deref c'.h c'.o ad = some e) ∧
      (r = .threw ∧ zs = a.s.1 ∧ (∃ i ∈ init, i.throws = true) ∨ r = .done false ∧ E.Inserted a.s.1 (init.map (·.val)) zs ∧
        ((∀ x ∈ a.s.1, ∀ e ∈ init.map (·.val), E.eq x.1 e.1 = false) → ((init.map (·.val)).Pairwise fun x y => E.eq x.1 y.1 = false) → zs = a.s.1 ++ init.map (·.val))) := by
  obtain ⟨r, a', c', e1, e2, t', -, -⟩ := MCall.good (mn := mn) hK t hi (.insertRange init left al) ⟨fun _ => .inl hroom, fun C hC => by rcases hC with hC | hC <;> cases hC⟩ y
  have hits : c'.its = c.its := by
    simp only [MCall.run] at e2
    cases hd : (Kind.linear E).insertRangeOn I mn left c.h c.o init al <;> rw [hd] at e2 <;> simp only [Containers.doneOf, land, Option.some.injEq, Prod.mk.injEq] at e2
    · rw [← e2.2]
    · rw [← e2.2]
    · cases e2
  have use : ∀ x p e, a.pos x = some p → a'.pos x = some p → a'.s.1[p]? = some e → ∃ ad, c.its x = some ad ∧ c'.its x = some ad ∧ I.deref c'.h c'.o ad = some e := by
    intro x p e h1 h2 h3
    obtain ⟨g1, -⟩ := t'.vars x p h2
    exact ⟨_, by rw [← hits]; exact g1, g1, by rw [Containers.deref_addr t'.rep]; exact h3⟩
  have hcap : ((GOp.append init al).spec L.cfg a.s).1.2 = a.s.2 := by
    simp only [GOp.spec, Containers.specInsert, List.length_map]
    split_ifs <;> first | rfl | omega
  simp only [MCall.mean, Option.some.injEq, Prod.mk.injEq] at e1
  cases hb : ((GOp.append init al).spec L.cfg a.s).2 with
  | true =>
    simp only [resOp, hb, if_true] at e1
    obtain ⟨rfl, rfl⟩ := e1
    refine ⟨_, c', _, e2, t'.rep, fun x p e h1 h2 => use x p e h1 h1 h2, .inl ⟨rfl, rfl, ?_⟩⟩
    simp only [GOp.spec, Containers.specInsert, List.length_map] at hb
    rw [if_pos hroom] at hb
    split_ifs at hb with g
    simpa using g
  | false =>
    simp only [resOp, hb, Bool.false_eq_true, if_false] at e1
    obtain ⟨rfl, rfl⟩ := e1
    refine ⟨_, c', _, e2, by rw [← hcap]; exact t'.rep, fun x p e h1 h2 => ?_, .inr ⟨rfl, Lin.takes_unique hK hi _, fun h3 h4 => ?_⟩⟩
    · obtain ⟨hlt, hget⟩ := List.getElem?_eq_some_iff.1 h2
      refine use x p e h1 ?_ ?_
      · show (a.pos x).filter ((GOp.append init al).valid a.s false) = some p
        rw [Option.filter_eq_some_iff]
        refine ⟨h1, ?_⟩
        simp only [GOp.valid, Bool.or_eq_true, Bool.and_eq_true, decide_eq_true_eq]
        exact .inr ⟨⟨rfl, hroom⟩, hlt⟩
      · show (a.s.1 ++ E.takes a.s.1 (init.map (·.val)))[p]? = some e
        rw [List.getElem?_append_left hlt]; exact h2
    · show a.s.1 ++ E.takes a.s.1 (init.map (·.val)) = _
      rw [Lin.takes_new hK _ h3 h4]

/-- The loop `while (it != end) { if (p(*it)) it = map.erase(it); else ++it; }` from an element before which `n` more are to come; the iterator is in variable 0. -/
def eraseLoop (p : κ × μ → Bool) : Nat → MProg κ μ Unit
  | 0 => .ret ()
  | n + 1 => .look (.deref 0) fun
    | .entry e => if p e then .call (.erase 0) 0 fun _ => eraseLoop p n else .look (.move 0 1 0) fun _ => eraseLoop p n
    | _ => .ret ()

theorem eraseLoop_spec {q : Containers.Cfg} (p : κ × μ → Bool) : ∀ (rest done : List (κ × μ)) {a : AS (κ × μ)}, a.s.1 = done ++ rest → a.pos 0 = some done.length →
    (eraseLoop p rest.length).Pre K q a ∧ ∃ pos, (eraseLoop p rest.length).mean K q a = some ((), ⟨(done ++ rest.filter (fun e => !p e), a.s.2), pos⟩)
  | [], done, ⟨⟨xs, cap⟩, pos⟩, h1, _ => by
    simp only at h1
    exact ⟨trivial, pos, by simp [eraseLoop, MProg.mean, h1]⟩
  | e :: rest, done, a, h1, h2 => by
    have hlen : a.s.1.length = done.length + rest.length + 1 := by rw [h1]; simp only [List.length_append, List.length_cons]; omega
    have hget : a.s.1[done.length]? = some e := by rw [h1]; simp
    have hm : (MLook.deref 0 : MLook κ μ).mean K a = some (.entry e, a) := by simp only [MLook.mean, h2, Option.bind_some, hget, Option.map_some]
    cases hp : p e with
    | true =>
      have hmean : (MCall.erase 0 : MCall κ μ).mean K q 0 a = some (.done false, afterOp q (.erase done.length (done.length + 1)) (some done.length) 0 a) := by
        simp only [MCall.mean, h2, Option.map_some]
      have hs : (afterOp q (.erase done.length (done.length + 1)) (some done.length) 0 a).s = (done ++ rest, a.s.2) := by
        simp only [afterOp, GOp.spec, h1]
        simp
      obtain ⟨i1, pos, i2⟩ := eraseLoop_spec (q := q) p rest done (a := afterOp q (.erase done.length (done.length + 1)) (some done.length) 0 a) (by rw [hs]) rfl
      refine ⟨⟨⟨_, h2, by omega⟩, fun x hx => ?_⟩, pos, ?_⟩
      · rw [hm] at hx; cases hx
        show (if p e then _ else _ : MProg κ μ Unit).Pre K q a
        rw [hp]
        refine ⟨⟨_, h2, by omega⟩, fun x hx => ?_⟩
        rw [hmean] at hx; cases hx
        exact i1
      · rw [List.length_cons, eraseLoop]
        simp only [MProg.mean, hm, Option.bind_some, hp, if_true, hmean]
        rw [i2, hs]
        simp [hp]
    | false =>
      have hmean : (MLook.move 0 1 0 : MLook κ μ).mean K a = some (.unit, a.set 0 (done.length + 1)) := by
        simp only [MLook.mean, h2, Option.map_some]; rfl
      obtain ⟨i1, pos, i2⟩ := eraseLoop_spec (q := q) p rest (done ++ [e]) (a := a.set 0 (done.length + 1)) (by simp [AS.set, h1]) (by simp [AS.set])
      refine ⟨⟨⟨_, h2, by omega⟩, fun x hx => ?_⟩, pos, ?_⟩
      · rw [hm] at hx; cases hx
        show (if p e then _ else _ : MProg κ μ Unit).Pre K q a
        rw [hp]
        refine ⟨⟨_, h2, by omega, by omega⟩, fun x hx => ?_⟩
        rw [hmean] at hx; cases hx
        exact i1
      · rw [List.length_cons, eraseLoop]
        simp only [MProg.mean, hm, Option.bind_some, hp, Bool.false_eq_true, if_false, hmean]
        rw [i2]
        simp [hp, AS.set]

/-- The loop that erases while it iterates, on any map: all elements for which the condition holds are erased, and the others are there in the order in which they were. -/
theorem C106_erase_loop (hK : K.Ok) {c : CS (κ × μ) O} {a : AS (κ × μ)} (t : Tracks L c a) (hi : K.Inv a.s.1) (p : κ × μ → Bool) :
    ∃ c', (MProg.look .size fun
        | .nat n => .look (.first 0) fun _ => eraseLoop p n
        | _ => .ret ()).run I mn K c = some ((), c') ∧ L.Rep c'.h c'.o (a.s.1.filter fun e => !p e) a.s.2 ∧ Frame (I.own c.o) c.h (I.own c'.o) c'.h := by
  obtain ⟨h1, pos, h2⟩ := eraseLoop_spec (K := K) (q := L.cfg) p a.s.1 [] (a := a.set 0 0) rfl rfl
  obtain ⟨r, a', c', e1, e2, t', -, f⟩ := C106_program_partial (mn := mn) (L := L) hK (.look .size fun
        | .nat n => .look (.first 0) fun _ => eraseLoop p n
        | _ => .ret ()) t hi ⟨trivial, fun x hx => by
          cases hx
          exact ⟨trivial, fun x hx => by cases hx; exact h1⟩⟩
  simp only [MProg.mean, MLook.mean, Option.bind_some] at e1
  rw [h2] at e1
  cases e1
  exact ⟨c', e2, t'.rep, f⟩

/-! ## The hypotheses can be met -/

/-- A decision procedure for what the program has to ensure, without `insert` of a range into a sorted map. -/
def MLook.ok (K : Kind κ μ) (a : AS (κ × μ)) : MLook κ μ → Bool
  | .first _ | .last _ | .size | .capacity | .iterate => true
  | .move x d _ => match a.pos x with
    | some k => decide (0 ≤ (k : Int) + d) && decide ((k : Int) + d ≤ a.s.1.length)
    | none => false
  | .diff x y => (a.pos x).isSome && (a.pos y).isSome
  | .deref x | .write x _ => match a.pos x with
    | some k => decide (k < a.s.1.length)
    | none => false
  | .find _ _ | .lookup _ | .update _ _ => match K with
    | .multi _ => false
    | _ => true
  | .lower _ _ | .upper _ _ => match K with
    | .linear _ => false
    | _ => true

@[inherit_doc MLook.ok]
def MCall.ok (K : Kind κ μ) (q : Containers.Cfg) (a : AS (κ × μ)) : MCall κ μ → Bool
  | .insert _ _ _ _ => match K with
    | .linear _ => decide (q.mx ≠ 0 → a.s.1.length = a.s.2 → q.reservable = true → max 1 (2 * a.s.2) ≤ q.mx)
    | _ => true
  | .insertRange init _ _ => match K with
    | .linear _ => decide (q.reservable = false → a.s.1.length + init.length ≤ a.s.2 ∨ a.s.2 < init.length)
    | _ => false
  | .erase x => match a.pos x with
    | some p => decide (p < a.s.1.length)
    | none => false
  | .eraseRange x y => match a.pos x, a.pos y with
    | some p, some r => decide (p ≤ r) && decide (r ≤ a.s.1.length)
    | _, _ => false
  | .eraseIf _ _ => match K with
    | .linear _ => false
    | _ => true
  | .reserve n _ => decide (n ≤ q.mx) && q.reservable

@[inherit_doc MLook.ok]
def MProg.ok (K : Kind κ μ) (q : Containers.Cfg) : MProg κ μ R → AS (κ × μ) → Bool
  | .ret _, _ => true
  | .look l k, a => l.ok K a && match l.mean K a with
    | some x => (k x.1).ok K q x.2
    | none => true
  | .call m y k, a => m.ok K q a && match m.mean K q y a with
    | some x => (k x.1).ok K q x.2
    | none => true

theorem MLook.ok_pre {a : AS (κ × μ)} {l : MLook κ μ} (h : l.ok K a = true) : l.Pre K a := by
  cases l <;> simp only [MLook.ok, MLook.Pre, Bool.and_eq_true] at h ⊢
  case move x d y =>
    cases hx : a.pos x with
    | none => rw [hx] at h; cases h
    | some k => rw [hx] at h; exact ⟨k, rfl, by simpa using h⟩
  case diff x y => exact h
  case deref x | write x v =>
    cases hx : a.pos x with
    | none => rw [hx] at h; cases h
    | some k => rw [hx] at h; exact ⟨k, rfl, by simpa using h⟩
  all_goals cases K <;> simp_all

theorem MCall.ok_pre {q : Containers.Cfg} {a : AS (κ × μ)} {m : MCall κ μ} (h : m.ok K q a = true) : m.Pre K q a := by
  cases m <;> simp only [MCall.ok, MCall.Pre, Bool.and_eq_true, decide_eq_true_eq, Bool.false_eq_true] at h ⊢
  case insert k v t al =>
    cases K with
    | linear E => exact fun _ _ _ => of_decide_eq_true h
    | flat C => exact fun E hE => by cases hE
    | multi C => exact fun E hE => by cases hE
  case insertRange init left al =>
    cases K with
    | linear E => exact ⟨of_decide_eq_true h, fun C hC => by rcases hC with hC | hC <;> cases hC⟩
    | flat C => cases h
    | multi C => cases h
  case erase x =>
    cases hx : a.pos x with
    | none => rw [hx] at h; cases h
    | some k => rw [hx] at h; exact ⟨k, rfl, by simpa using h⟩
  case eraseRange x y =>
    cases hx : a.pos x with
    | none => rw [hx] at h; cases h
    | some k =>
      cases hy : a.pos y with
      | none => rw [hx, hy] at h; cases h
      | some j => rw [hx, hy] at h; exact ⟨k, j, rfl, rfl, by simpa using h⟩
  case eraseIf p mv => cases K <;> simp_all
  case reserve n f => exact h

theorem MProg.ok_pre {q : Containers.Cfg} : ∀ (P : MProg κ μ R) {a : AS (κ × μ)}, P.ok K q a = true → P.Pre K q a
  | .ret _, _, _ => trivial
  | .look l k, a, h => by
    simp only [MProg.ok, Bool.and_eq_true] at h
    refine ⟨MLook.ok_pre h.1, fun x hx => ?_⟩
    rw [hx] at h
    exact MProg.ok_pre (k x.1) h.2
  | .call m y k, a, h => by
    simp only [MProg.ok, Bool.and_eq_true] at h
    refine ⟨MCall.ok_pre h.1, fun x hx => ?_⟩
    rw [hx] at h
    exact MProg.ok_pre (k x.1) h.2

/-- A program: three insertions, of which one fails and one has an old key; a mapped value is changed through an iterator, what `find` finds is erased, and what `erase` returns
is read. -/
def exUse : MProg Nat Nat (List (MRes) × MAns Nat Nat × MAns Nat Nat × MAns Nat Nat) :=
  .call (.reserve 4 false) 0 fun _ => .call (.insert 5 1 false fun _ => false) 0 fun r1 => .call (.insert 7 2 false fun _ => false) 1 fun r2 => .look (.write 0 9) fun _ =>
    .call (.insert 6 3 true fun _ => false) 2 fun r3 => .call (.insert 7 4 false fun _ => false) 2 fun r4 => .call (.insert 3 8 false fun _ => false) 2 fun r5 =>
      .look (.find 5 3) fun _ => .call (.erase 3) 3 fun _ => .look (.deref 3) fun e => .look (.lookup 5) fun v => .look .iterate fun es =>
        .ret ([r1, r2, r3, r4, r5], e, v, es)

/-- What it gets, by the specification and by the code. -/
example : (exUse.mean (.flat exMap) (Containers.Vec.lawful (V := Nat × Nat) 0 100 (by omega)).cfg ⟨([], 0), fun _ => none⟩).map (·.1) =
    some ([.done true, .done true, .threw, .done false, .done true], .entry (7, 2), .mapped none, .entries [(3, 8), (7, 2)]) ∧
    (exUse.run (Containers.vec (Nat × Nat) 0 100) 0 (.flat exMap) ⟨⟨fun _ => none, 0⟩, { ptr := none, cap := 0, size := 0 }, fun _ => none⟩).map (·.1) =
    some ([.done true, .done true, .threw, .done false, .done true], .entry (7, 2), .mapped none, .entries [(3, 8), (7, 2)]) := by
  constructor <;> decide +kernel

/-- The hypotheses of `C106_empty_map_partial` for that program, and for the same program with a linear map. -/
example : (Kind.flat exMap).Ok ∧ exUse.Pre (.flat exMap) (Containers.Vec.lawful (V := Nat × Nat) 0 100 (by omega)).cfg ⟨([], 0), fun _ => none⟩ ∧
    (Kind.linear exLin : Kind Nat Nat).Ok ∧ exUse.Pre (.linear exLin) (Containers.Vec.lawful (V := Nat × Nat) 0 100 (by omega)).cfg ⟨([], 0), fun _ => none⟩ ∧
    Fresh (⟨fun _ => none, 0⟩ : Heap (Nat × Nat)) :=
  ⟨⟨exCfg_ok exStd_sorts 100 .keep, by decide⟩, MProg.ok_pre _ (by decide +kernel), exLin_eq, MProg.ok_pre _ (by decide +kernel), fun _ _ => rfl⟩

/-- A program with a multimap, in which a key is there twice. -/
def exTwice : MProg Nat Nat (MAns Nat Nat × MAns Nat Nat) :=
  .call (.insert 5 1 false fun _ => false) 0 fun _ => .call (.insert 3 2 false fun _ => false) 0 fun _ => .call (.insert 5 9 false fun _ => false) 0 fun _ =>
    .look (.lower 5 1) fun _ => .look (.upper 5 2) fun _ => .look (.diff 1 2) fun d => .call (.eraseRange 1 0) 1 fun _ => .look .iterate fun es => .ret (d, es)

example : (exTwice.run (Containers.vec (Nat × Nat) 0 100) 0 (.multi (exMulti 100)) ⟨⟨fun _ => none, 0⟩, { ptr := none, cap := 0, size := 0 }, fun _ => none⟩).map (·.1) =
    some (.int 2, .entries [(3, 2), (5, 9)]) := by
  decide +kernel

theorem exMulti_ok : (Kind.multi (exMulti 100)).Ok := by
  have h := exCfg_ok exStd_sorts 100 .clear
  exact ⟨⟨h.order, h.eq, h.desc, h.wf, h.nonEmpty, h.plain, h.std⟩, refMerge_merges h.elt_order⟩

example : (Kind.multi (exMulti 100)).Ok ∧ exTwice.Pre (.multi (exMulti 100)) (Containers.Vec.lawful (V := Nat × Nat) 0 100 (by omega)).cfg ⟨([], 0), fun _ => none⟩ :=
  ⟨exMulti_ok, MProg.ok_pre _ (by decide +kernel)⟩

/-- `insert` of a range can be used in an empty map: different keys, few elements. -/
example : (MCall.insertRange [⟨(5, 1), false⟩, ⟨(3, 2), false⟩] (0, 0) fun _ => false).Pre (.flat exMap) (Containers.Vec.lawful (V := Nat × Nat) 0 100 (by omega)).cfg
      ⟨([], 0), fun _ => none⟩ ∧
    (MCall.insertRange [⟨(5, 1), false⟩, ⟨(3, 2), false⟩] (0, 0) fun _ => false).Pre (.multi (exMulti 100)) (Containers.Vec.lawful (V := Nat × Nat) 0 100 (by omega)).cfg
      ⟨([], 0), fun _ => none⟩ := by
  refine ⟨⟨(fun hr => by cases hr), fun C hC => ?_⟩, (fun hr => by cases hr), fun C hC => ?_⟩
  · rcases hC with hC | hC <;> cases hC
    exact ⟨.inl (.inl (by decide)), by simp [Cfg.Same, exMap, exCfg]⟩
  · rcases hC with hC | hC <;> cases hC
    exact ⟨.inl (.inl (by decide)), by simp [Cfg.Same, exMulti, exCfg]⟩

/-- A program that inserts ranges: the second has a key that is there, and the iterator to that is used afterwards. -/
def exRanges : MProg Nat Nat (MRes × MAns Nat Nat × MAns Nat Nat) :=
  .call (.reserve 8 false) 0 fun _ => .call (.insertRange [⟨(5, 1), false⟩, ⟨(3, 2), false⟩] (0, 0) fun _ => false) 0 fun _ => .look (.find 3 1) fun _ =>
    .call (.insertRange [⟨(3, 7), false⟩, ⟨(9, 4), false⟩, ⟨(8, 6), false⟩] (0, 0) fun _ => false) 0 fun r => .look (.deref 1) fun e => .look .iterate fun es => .ret (r, e, es)

/-- In a linear map the last element of the range comes first. -/
example : (exRanges.run (Containers.vec (Nat × Nat) 0 100) 0 (.linear exLin) ⟨⟨fun _ => none, 0⟩, { ptr := none, cap := 0, size := 0 }, fun _ => none⟩).map (·.1) =
      some (.done false, .entry (3, 2), .entries [(5, 1), (3, 2), (8, 6), (9, 4)]) ∧
    (exRanges.mean (.linear exLin) (Containers.Vec.lawful (V := Nat × Nat) 0 100 (by omega)).cfg ⟨([], 0), fun _ => none⟩).map (·.1) =
      some (.done false, .entry (3, 2), .entries [(5, 1), (3, 2), (8, 6), (9, 4)]) ∧
    exRanges.Pre (.linear exLin) (Containers.Vec.lawful (V := Nat × Nat) 0 100 (by omega)).cfg ⟨([], 0), fun _ => none⟩ :=
  ⟨by decide +kernel, by decide +kernel, MProg.ok_pre _ (by decide +kernel)⟩

/-- In a multimap they are all there. -/
example : (MCall.run (Containers.stat (Nat × Nat) 8) 8 (.multi (exMulti 100)) ⟨⟨fun _ => none, 0⟩, ⟨fun k => [(3, 2), (5, 1)][k]?, 2⟩, fun _ => none⟩
      (.insertRange [⟨(5, 7), false⟩, ⟨(4, 4), false⟩] (0, 0) fun _ => false)).2 = false ∧
    (Kind.multi (exMulti 100)).insertAll [(3, 2), (5, 1)] [(5, 7), (4, 4)] = [(3, 2), (4, 4), (5, 1), (5, 7)] := by decide +kernel

/-- The hypotheses of `C106_insert_keeps`, `C106_old_key`, `C106_linear_range` (there is room for two elements) and `C106_erase_loop`: a map with two elements in a static container, and an iterator to the first. -/
example : Tracks (Containers.Stat.lawful (V := Nat × Nat) 4) ⟨⟨fun _ => none, 0⟩, ⟨fun k => [(3, 2), (5, 1)][k]?, 2⟩, fun _ => some ⟨none, 0⟩⟩ ⟨([(3, 2), (5, 1)], 4), fun _ => some 0⟩ ∧
    (Kind.flat exMap).Inv [(3, 2), (5, 1)] ∧ exMap.lt 3 4 = true ∧ (Kind.flat exMap).same 5 5 = true ∧ (Kind.linear exLin : Kind Nat Nat).Inv [(3, 2), (5, 1)] := by
  refine ⟨⟨?_, fun _ _ => rfl, fun x p hx => ?_⟩, by simp [Kind.Inv, exMap, exCfg], by decide, by decide, by simp [Kind.Inv, Kind.same, exLin]⟩
  · exact Containers.Stat.rep_iff.2 ⟨⟨by funext k; simp [Containers.cells], rfl, by decide⟩, rfl⟩
  · cases hx
    exact ⟨rfl, Nat.zero_le _⟩

end Verif.Maps
