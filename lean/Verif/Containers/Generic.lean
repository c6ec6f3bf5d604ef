import Verif.Containers.Iface

/-!
# The generic operations of contiguous containers

Every operation takes the heap, the object, and what can go wrong: which element operations
throw, and which allocations fail (`al k` is the fate of the `k`-th allocation the operation
asks for). The result is the heap and the object after the operation.
-/

namespace Verif.Containers

open Verif

variable {V O : Type}

namespace Impl

/-- Change the slots of the object. -/
def modify (I : Impl V O) (h : Heap V) (o : O) (f : Nat → Cells V → Option (Cells V)) :
    Option (Heap V × O) :=
  (f (I.mem h o).1 (I.mem h o).2).map (I.put h o)

/-- `uninitialized_copy_no_overlap(source, data() + pos)` on the object's own storage. -/
def copyAt (I : Impl V O) (h : Heap V) (o : O) (pos : Nat) (src : List (Item V)) : Out (Heap V × O) :=
  match uninitCopy (I.mem h o).1 (I.mem h o).2 pos src with
  | .ok c => .ok (I.put h o c)
  | .exn c => .exn (I.put h o c)
  | .ub => .ub

/-- `uninitialized_relocate_no_overlap(subrange(begin(o) + src, n), begin(t) + dst)` between
two objects. -/
def relocInto (I : Impl V O) (h : Heap V) (o t : O) (src dst n : Nat) : Option (Heap V × O × O) :=
  if I.ptr o = I.ptr t ∧ (I.ptr o).isSome then none
  else
    match relocTo (I.mem h o).1 (I.mem h t).1 (I.mem h o).2 (I.mem h t).2 src dst n with
    | none => none
    | some (a, b) =>
      let r := I.put h o a
      let s := I.put r.1 t b
      some (s.1, r.2, s.2)

/-- An exception leaves the scope of the temporary `t`. -/
def failTemp (I : Impl V O) (h : Heap V) (t o : O) : Out (Heap V × O) :=
  match I.dtor h t with
  | some h' => .exn (h', o)
  | none => .ub

/-- `container.set_size(0); container = std::move(temp);` and the destruction of `temp` at the
end of its scope (source/containers/lazy_push_back.cpp 60-62, append.cpp 51-52, insert.cpp
85-87, shrink_to_fit.cpp 37-38). -/
def takeOver (I : Impl V O) (h : Heap V) (o t : O) : Option (Heap V × O) :=
  match I.setSize o 0 with
  | none => none
  | some o1 =>
    match I.moveAssign h o1 t with
    | none => none
    | some (h1, o2, t2) => (I.dtor h1 t2).map fun h2 => (h2, o2)

/-- `container.set_size(n)`. -/
def finish (I : Impl V O) (r : Option (Heap V × O)) (n : Nat) : Out (Heap V × O) :=
  match r with
  | none => .ub
  | some (h, o) =>
    match I.setSize o n with
    | none => .ub
    | some o' => .ok (h, o')

/-- source/containers/reallocation_size.cpp 19-29. -/
def reallocationSize (current minimum : Nat) : Nat := max minimum (current * 2)

end Impl

/-- What the new element of `push_back` is constructed from: a value, or the element `k` of the
same container (`push_back(v, v[k])`). -/
inductive PSrc (V : Type) where
  | lit (v : V) (throws : Bool)
  | self (k : Nat) (throws : Bool)
  deriving Repr, DecidableEq

/-- Running the constructor: reads the container's slots as they are at that moment. -/
def PSrc.eval (c : PSrc V) (m : Nat × Cells V) : Option (V × Bool) :=
  match c with
  | .lit v t => some (v, t)
  | .self k t => (readCell m.1 m.2 k).map fun v => (v, t)

namespace Impl

/-- source/containers/lazy_push_back_into_capacity.cpp 32-48 (for containers with `set_size`). -/
def pushInto (I : Impl V O) (h : Heap V) (o : O) (c : PSrc V) : Out (Heap V × O) :=
  match c.eval (I.mem h o) with
  | none => .ub
  | some (_, true) => .exn (h, o)
  | some (v, false) =>
    I.finish (I.modify h o fun cap m => construct cap m (I.size o) v) (I.size o + 1)

/-- source/containers/lazy_push_back.cpp 37-77 for containers with `set_size`. Line 44-45: a
container that can never hold an element throws. Line 53: `assume_in_range` of the doubled
capacity. Line 57: the element is constructed before the old elements are relocated. -/
def pushBack (I : Impl V O) (h : Heap V) (o : O) (c : PSrc V) (al : Nat → Bool) : Out (Heap V × O) :=
  if I.mx = 0 then .exn (h, o)
  else
  match I.capacity o with
  | none => .ub
  | some cap =>
    if I.size o < cap then I.pushInto h o c
    else if I.reservable then
      match I.new h (al 0) with
      | .exn => .exn (h, o)
      | .ub => .ub
      | .ok (h1, t) =>
        if I.mx < reallocationSize cap 1 then .ub
        else
          match I.reserve h1 t (reallocationSize cap 1) (al 1) with
          | .ub => .ub
          | .exn (h2, t2) => I.failTemp h2 t2 o
          | .ok (h2, t2) =>
            match c.eval (I.mem h2 o) with
            | none => .ub
            | some (_, true) => I.failTemp h2 t2 o
            | some (v, false) =>
              match I.modify h2 t2 fun cap m => construct cap m (I.size o) v with
              | none => .ub
              | some (h3, t3) =>
                match I.relocInto h3 o t3 0 0 (I.size o) with
                | none => .ub
                | some (h4, o4, t4) => I.finish (I.takeOver h4 o4 t4) (I.size o + 1)
    else .exn (h, o)

/-- source/containers/exponential_force_reserve.cpp 18-31. `check_in_range` throws when the
new capacity is not representable. -/
def expForceReserve (I : Impl V O) (h : Heap V) (t : O) (current newSize : Nat) (f : Bool) :
    Out (Heap V × O) :=
  match I.capacity t with
  | none => .ub
  | some c =>
    if current < c then .ub
    else if I.mx < reallocationSize current newSize then .exn (h, t)
    else I.reserve h t (reallocationSize current newSize) f

/-- source/containers/append.cpp 38-73 `append_impl` for containers with `set_size` and sources
whose size is known before use. Lines 40-54 when the container can reserve; otherwise lines
55-73, where `check_size_not_greater_than` (source/containers/take.cpp 187-203) compares the
size of the source with the whole capacity. -/
def append (I : Impl V O) (h : Heap V) (o : O) (src : List (Item V)) (al : Nat → Bool) :
    Out (Heap V × O) :=
  match I.capacity o with
  | none => .ub
  | some cap =>
    if I.reservable then
      if I.size o + src.length ≤ cap then
        match I.copyAt h o (I.size o) src with
        | .ub => .ub
        | .exn r => .exn r
        | .ok r => I.finish (some r) (I.size o + src.length)
      else
        match I.new h (al 0) with
        | .exn => .exn (h, o)
        | .ub => .ub
        | .ok (h1, t) =>
          match I.expForceReserve h1 t cap (I.size o + src.length) (al 1) with
          | .ub => .ub
          | .exn (h2, t2) => I.failTemp h2 t2 o
          | .ok (h2, t2) =>
            match I.copyAt h2 t2 (I.size o) src with
            | .ub => .ub
            | .exn (h3, t3) => I.failTemp h3 t3 o
            | .ok (h3, t3) =>
              match I.relocInto h3 o t3 0 0 (I.size o) with
              | none => .ub
              | some (h4, o4, t4) => I.finish (I.takeOver h4 o4 t4) (I.size o + src.length)
    else if cap < src.length then .exn (h, o)
    else
      match I.copyAt h o (I.size o) src with
      | .ub => .ub
      | .exn r => .exn r
      | .ok r => I.finish (some r) (I.size o + src.length)

/-- source/containers/append.cpp 74-82: a source whose size is not known before use is pushed
back element by element. (Containers that can reserve; source/containers/assign_to_empty.cpp
83-86 is the same loop.) -/
def pushAll (I : Impl V O) (h : Heap V) (o : O) (al : Nat → Bool) : List (Item V) → Out (Heap V × O)
  | [] => .ok (h, o)
  | it :: its =>
    match I.pushBack h o (.lit it.val it.throws) al with
    | .ok (h1, o1) => pushAll I h1 o1 (fun k => al (k + 2)) its
    | .exn r => .exn r
    | .ub => .ub

end Impl

/-- source/containers/take.cpp 86-99, 212-216: a range of unknown size through
`check_size_not_greater_than(range, n)`. The comparison with the end throws when `n` elements
were taken and there are more. -/
def checkedView : Nat → List (Item V) → List (Item V)
  | _, [] => []
  | 0, it :: _ => [{ it with throws := true }]
  | n + 1, it :: its => it :: checkedView n its

namespace Impl

/-- source/containers/append.cpp 55-82 for a source of unknown size (and
source/containers/assign_to_empty.cpp 72-86, which does the same on an empty container). -/
def appendUnsized (I : Impl V O) (h : Heap V) (o : O) (al : Nat → Bool) (src : List (Item V)) :
    Out (Heap V × O) :=
  if I.reservable then I.pushAll h o al src
  else
    match I.capacity o with
    | none => .ub
    | some cap =>
      match I.copyAt h o (I.size o) (checkedView cap src) with
      | .ub => .ub
      | .exn r => .exn r
      | .ok r => I.finish (some r) (I.size o + src.length)

/-- source/containers/insert.cpp 41-59 `insert_without_reallocation`. -/
def insertInPlace (I : Impl V O) (h : Heap V) (o : O) (k : Nat) (src : List (Item V)) : Out (Heap V × O) :=
  match I.modify h o fun cap m =>
      relocBack cap m (I.size o) (I.size o + src.length) (I.size o - k) with
  | none => .ub
  | some (h1, o1) =>
    match I.copyAt h1 o1 k src with
    | .ub => .ub
    | .exn (h2, o2) =>
      match I.modify h2 o2 fun cap m => relocFwd cap m (k + src.length) k (I.size o - k) with
      | none => .ub
      | some r => .exn r
    | .ok r => I.finish (some r) (I.size o + src.length)

/-- source/containers/insert.cpp 61-89 `insert_with_reallocation`. -/
def insertRealloc (I : Impl V O) (h : Heap V) (o : O) (cap k : Nat) (src : List (Item V))
    (al : Nat → Bool) : Out (Heap V × O) :=
  match I.new h (al 0) with
  | .exn => .exn (h, o)
  | .ub => .ub
  | .ok (h1, t) =>
    match I.expForceReserve h1 t cap (I.size o + src.length) (al 1) with
    | .ub => .ub
    | .exn (h2, t2) => I.failTemp h2 t2 o
    | .ok (h2, t2) =>
      match I.copyAt h2 t2 k src with
      | .ub => .ub
      | .exn (h3, t3) => I.failTemp h3 t3 o
      | .ok (h3, t3) =>
        match I.relocInto h3 o t3 0 0 k with
        | none => .ub
        | some (h4, o4, t4) =>
          match I.relocInto h4 o4 t4 k (k + src.length) (I.size o - k) with
          | none => .ub
          | some (h5, o5, t5) =>
            match I.setSize t5 (I.size o + src.length) with
            | none => .ub
            | some t6 =>
              match I.takeOver h5 o5 t6 with
              | none => .ub
              | some r => .ok r

/-- source/containers/insert.cpp 109-135 `insert` at position `k`. -/
def insert (I : Impl V O) (h : Heap V) (o : O) (k : Nat) (src : List (Item V)) (al : Nat → Bool) :
    Out (Heap V × O) :=
  if I.size o < k then .ub
  else
    match I.capacity o with
    | none => .ub
    | some cap =>
      if I.size o + src.length ≤ cap then I.insertInPlace h o k src
      else if I.reservable then I.insertRealloc h o cap k src al
      else .exn (h, o)

/-- source/containers/clear.cpp 31-34 for containers with `set_size`. -/
def clear (I : Impl V O) (h : Heap V) (o : O) : Out (Heap V × O) :=
  I.finish (I.modify h o fun cap m => destroyRange cap m 0 (I.size o)) 0

/-- source/containers/pop_back.cpp 33-36 for containers with `set_size`. -/
def popBack (I : Impl V O) (h : Heap V) (o : O) : Out (Heap V × O) :=
  if I.size o = 0 then .ub
  else I.finish (I.modify h o fun cap m => destroy cap m (I.size o - 1)) (I.size o - 1)

/-- source/containers/algorithms/erase.cpp 77-88 `erase_to_end` from position `k`. -/
def eraseToEnd (I : Impl V O) (h : Heap V) (o : O) (k : Nat) : Out (Heap V × O) :=
  if I.size o < k then .ub
  else I.finish (I.modify h o fun cap m => destroyRange cap m k (I.size o - k)) k

end Impl

/-- source/containers/algorithms/erase.cpp 55-60: the loop of `erase`. `rest` is
`last - source`. Line 57 relocates the source element into the slot that line 56 made raw. -/
def eraseLoop (cap middle : Nat) : Nat → Cells V → Nat → Nat → Option (Cells V × Nat × Nat)
  | 0, m, target, source => some (m, target, source)
  | rest + 1, m, target, source =>
    if target = middle then some (m, target, source)
    else
      (destroy cap m target).bind fun m1 =>
      (relocateAt cap m1 target source).bind fun m2 =>
        eraseLoop cap middle rest m2 (target + 1) (source + 1)

/-- source/containers/algorithms/erase.cpp 48-65 on the slots: erase `[first, middle)` of
`[0, last)`. -/
def eraseCells (first middle last cap : Nat) (m : Cells V) : Option (Cells V) :=
  match eraseLoop cap middle (last - middle) m first middle with
  | none => none
  | some (m1, target, source) =>
    if source ≠ last then relocFwd cap m1 source middle (last - source)
    else destroyRange cap m1 target (middle - target)

/-- source/containers/algorithms/erase.cpp 109-116: the loop of `erase_if`. `rest` is
`last - it`; the result is the slots, `new_last` and the returned count. Line 112 is a move
assignment between two elements that are alive: `mv v` is what it leaves in the source. -/
def eraseIfLoop (p : V → Bool) (mv : V → V) (cap : Nat) :
    Nat → Cells V → Nat → Nat → Nat → Option (Cells V × Nat × Nat)
  | 0, m, newLast, _, result => some (m, newLast, result)
  | rest + 1, m, newLast, it, result =>
    match readCell cap m it, readCell cap m newLast with
    | some v, some _ =>
      if p v then eraseIfLoop p mv cap rest m newLast (it + 1) result
      else eraseIfLoop p mv cap rest (upd (upd m newLast (some v)) it (some (mv v))) (newLast + 1) (it + 1) (result + 1)
    | _, _ => none

/-- source/containers/algorithms/find.cpp `find_if` on the slots `[k, k + n)`: the position of the
first element that satisfies `p`, or the end. -/
def findIfCells (p : V → Bool) (cap : Nat) (m : Cells V) (k : Nat) : Nat → Option Nat
  | 0 => some k
  | n + 1 =>
    match readCell cap m k with
    | none => none
    | some v => if p v then some k else findIfCells p cap m (k + 1) n

/-- source/containers/algorithms/copy.cpp 44-56 `copy_truncate`: assigns source elements to the
elements `[pos, last)`; `rest` is `last - pos`. An assignment that throws leaves the value
`left` in its target. The result is the slots, the position reached, and the rest of the source. -/
def copyTruncate (left : V) (cap : Nat) : Nat → Cells V → Nat → List (Item V) →
    Out (Cells V × Nat × List (Item V))
  | 0, m, pos, src => .ok (m, pos, src)
  | _ + 1, m, pos, [] => .ok (m, pos, [])
  | rest + 1, m, pos, it :: its =>
    match readCell cap m pos with
    | none => .ub
    | some _ =>
      if it.throws then .exn (upd m pos (some left), pos, it :: its)
      else copyTruncate left cap rest (upd m pos (some it.val)) (pos + 1) its

namespace Impl

/-- source/containers/algorithms/erase.cpp 36-69 `erase(first, middle)`. -/
def erase (I : Impl V O) (h : Heap V) (o : O) (first middle : Nat) : Out (Heap V × O) :=
  if first = middle then .ok (h, o)
  else if ¬(first < middle ∧ middle ≤ I.size o) then .ub
  else I.finish (I.modify h o (eraseCells first middle (I.size o))) (I.size o - (middle - first))

/-- source/containers/algorithms/erase.cpp 90-120 `erase_if` (lines 103-119). The result also
has the returned count. -/
def eraseIf (I : Impl V O) (h : Heap V) (o : O) (p : V → Bool) (mv : V → V) : Out ((Heap V × O) × Nat) :=
  match findIfCells p (I.mem h o).1 (I.mem h o).2 0 (I.size o) with
  | none => .ub
  | some k =>
    if k = I.size o then .ok ((h, o), 0)
    else
      match eraseIfLoop p mv (I.mem h o).1 (I.size o - (k + 1)) (I.mem h o).2 k (k + 1) 0 with
      | none => .ub
      | some (m, newLast, result) =>
        match I.eraseToEnd (I.put h o m).1 (I.put h o m).2 newLast with
        | .ok r => .ok (r, result)
        | .exn r => .exn (r, result)
        | .ub => .ub

/-- source/containers/resize.cpp 23-39 `resize_impl`; `gen k` is what the `k`-th call of the
generator does. -/
def resize (I : Impl V O) (h : Heap V) (o : O) (n : Nat) (gen : Nat → Item V) (al : Nat → Bool) :
    Out (Heap V × O) :=
  if n ≤ I.size o then I.eraseToEnd h o n
  else I.append h o ((List.range (n - I.size o)).map gen) al

/-- source/containers/shrink_to_fit.cpp 21-39; `mn` is the smallest value of the type of
`capacity()`. -/
def shrinkToFit (I : Impl V O) (mn : Nat) (h : Heap V) (o : O) (al : Nat → Bool) : Out (Heap V × O) :=
  match I.capacity o with
  | none => .ub
  | some cap =>
    if I.size o = cap then .ok (h, o)
    else if 0 < mn ∧ cap = mn then .ok (h, o)
    else
      match I.new h (al 0) with
      | .exn => .exn (h, o)
      | .ub => .ub
      | .ok (h1, t) =>
        match I.reserve h1 t (I.size o) (al 1) with
        | .ub => .ub
        | .exn (h2, t2) => I.failTemp h2 t2 o
        | .ok (h2, t2) =>
          match I.relocInto h2 o t2 0 0 (I.size o) with
          | none => .ub
          | some (h3, o3, t3) =>
            match I.setSize t3 (I.size o) with
            | none => .ub
            | some t4 =>
              match I.takeOver h3 o3 t4 with
              | none => .ub
              | some r => .ok r

/-- source/containers/assign_to_empty.cpp 60-82 `assign_to_empty_impl` for sources whose size is
known before use. Lines 63-64 (a source whose size type always fits) have the same effect as
the other branches for sources that are only read; `MoveSource.lean` has rvalue containers. -/
def assignToEmpty (I : Impl V O) (h : Heap V) (o : O) (src : List (Item V)) (al : Nat → Bool) :
    Out (Heap V × O) :=
  if I.size o ≠ 0 then .ub
  else
    match I.capacity o with
    | none => .ub
    | some cap =>
      if I.reservable then
        if I.mx < src.length then .ub
        else
          match (if cap < src.length then I.replaceEmpty h o src.length (al 0) else .ok (h, o)) with
          | .ub => .ub
          | .exn r => .exn r
          | .ok (h1, o1) =>
            match I.copyAt h1 o1 0 src with
            | .ub => .ub
            | .exn r => .exn r
            | .ok r => I.finish (some r) src.length
      else if cap < src.length then .exn (h, o)
      else
        match I.copyAt h o 0 src with
        | .ub => .ub
        | .exn r => .exn r
        | .ok r => I.finish (some r) src.length

/-- source/containers/assign.cpp 78-80: `assign` for trivially copyable elements. -/
def assignTrivial (I : Impl V O) (h : Heap V) (o : O) (src : List (Item V)) (al : Nat → Bool) :
    Out (Heap V × O) :=
  match I.clear h o with
  | .ub => .ub
  | .exn r => .exn r
  | .ok (h1, o1) => I.assignToEmpty h1 o1 src al

/-- source/containers/assign.cpp 81-91: `assign` for other elements. -/
def assign (I : Impl V O) (h : Heap V) (o : O) (src : List (Item V)) (left : V) (al : Nat → Bool) :
    Out (Heap V × O) :=
  match copyTruncate left (I.mem h o).1 (I.size o) (I.mem h o).2 0 src with
  | .ub => .ub
  | .exn (m, _, _) => .exn (I.put h o m)
  | .ok (m, pos, rest) =>
    match I.eraseToEnd (I.put h o m).1 (I.put h o m).2 pos with
    | .ub => .ub
    | .exn r => .exn r
    | .ok (h1, o1) => I.append h1 o1 rest al

end Impl

/-- The operations on one contiguous container. -/
inductive GOp (V : Type) where
  | push (c : PSrc V) (al : Nat → Bool)
  | pop
  | append (src : List (Item V)) (al : Nat → Bool)
  | appendUnsized (src : List (Item V)) (al : Nat → Bool)
  | insert (k : Nat) (src : List (Item V)) (al : Nat → Bool)
  | erase (first middle : Nat)
  | eraseToEnd (k : Nat)
  | eraseIf (p : V → Bool) (mv : V → V)
  | clear
  | resize (n : Nat) (gen : Nat → Item V) (al : Nat → Bool)
  | reserve (n : Nat) (fails : Bool)
  | shrink (al : Nat → Bool)
  | assignTrivial (src : List (Item V)) (al : Nat → Bool)
  | assign (src : List (Item V)) (left : V) (al : Nat → Bool)

/-- Running one operation. `reserve(n)` takes a `size_type`, so `n` is at most the maximum. -/
def Impl.step (I : Impl V O) (mn : Nat) (h : Heap V) (o : O) : GOp V → Out (Heap V × O)
  | .push c al => I.pushBack h o c al
  | .pop => I.popBack h o
  | .append src al => I.append h o src al
  | .appendUnsized src al => I.appendUnsized h o al src
  | .insert k src al => I.insert h o k src al
  | .erase a b => I.erase h o a b
  | .eraseToEnd k => I.eraseToEnd h o k
  | .eraseIf p mv =>
    match I.eraseIf h o p mv with
    | .ok r => .ok r.1
    | .exn r => .exn r.1
    | .ub => .ub
  | .clear => I.clear h o
  | .resize n gen al => I.resize h o n gen al
  | .reserve n f => I.reserve h o n f
  | .shrink al => I.shrinkToFit mn h o al
  | .assignTrivial src al => I.assignTrivial h o src al
  | .assign src left al => I.assign h o src left al

end Verif.Containers
