import Verif.Lists.BidirProps

/-!
# The singly linked list

Models `source/containers/forward_linked_list.cpp` 32-133, `linked_list_helper.cpp` 33-104,
`append_after.cpp` 23-28, and what the generic functions do with such a list: `clear.cpp`
27-44 with `pop_front.cpp` 20-22, `push_front.cpp` / `lazy_push_front.cpp` 35-36,
`algorithms/erase.cpp` 122-128, `assign_to_empty.cpp` 87-90, `assign.cpp` 74-77 with
`algorithms/copy.cpp` 44-98.

Addresses as in `Heap.lean`; a null pointer is `none`, so `next` is an `Option Nat`. The
position `before_begin()` of a list is the address of the list.
-/

namespace Verif.Lists

variable {V : Type}

/-- `forward_link` (`forward_linked_list.cpp` 32-34) and the value of the node. -/
structure FLink (V : Type) where
  next : Option Nat
  val : Option V

/-- The memory: nodes and sentinels by address, and the next address to be used (`forward_linked_list.cpp` 32-34, 120-131, `linked_list_helper.cpp` 46-51). Addresses
are not used again. -/
structure FHeap (V : Type) where
  cell : Nat → Option (FLink V)
  next : Nat

namespace FHeap

/-- `p->next` -/
def nextOf (h : FHeap V) (a : Nat) : Option (Option Nat) := (h.cell a).map (·.next)
/-- What lives at an address. -/
def valOf (h : FHeap V) (a : Nat) : Option (Option V) := (h.cell a).map (·.val)
/-- `p->next = b` -/
def setNext (h : FHeap V) (a : Nat) (b : Option Nat) : Option (FHeap V) :=
  (h.cell a).map fun c => { h with cell := upd h.cell a (some { c with next := b }) }

/-- `make_node`: a node with a null link. -/
def makeNode (h : FHeap V) (v : V) : FHeap V :=
  { cell := upd h.cell h.next (some ⟨none, some v⟩), next := h.next + 1 }
/-- `destroy_node` -/
def destroyNode (h : FHeap V) (a : Nat) : Option (FHeap V) :=
  match h.cell a with
  | some ⟨_, some _⟩ => some { h with cell := upd h.cell a none }
  | _ => none
/-- The default constructor (`forward_linked_list.cpp` 41). -/
def makeList (h : FHeap V) : FHeap V :=
  { cell := upd h.cell h.next (some ⟨none, none⟩), next := h.next + 1 }
/-- The end of the life of the sentinel. -/
def freeList (h : FHeap V) (l : Nat) : Option (FHeap V) :=
  match h.cell l with
  | some ⟨_, none⟩ => some { h with cell := upd h.cell l none }
  | _ => none

/-- `lazy_insert_after` (`forward_linked_list.cpp` 96-103) when nothing throws. -/
def insertNode (h : FHeap V) (before : Nat) (v : V) : Option (FHeap V) := do
  let ptr := h.next
  let h := h.makeNode v
  let n ← h.nextOf before
  let h ← h.setNext ptr n
  h.setNext before (some ptr)

/-- `lazy_insert_after`; `fail`: the allocation or the construction throws. -/
def insertAfter (h : FHeap V) (before : Nat) (v : V) (fail : Bool) : Out (FHeap V) :=
  if fail then .exn h else ptr (h.insertNode before v)

/-- `erase_after` (`forward_linked_list.cpp` 104-113), with the iterator it returns. -/
def eraseAfter (h : FHeap V) (before : Nat) : Option (FHeap V × Option Nat) := do
  let it ← h.nextOf before
  let it ← it
  let after ← h.nextOf it
  let h ← h.setNext before after
  let h ← h.destroyNode it
  some (h, after)

/-- `splice_after` (`forward_linked_list.cpp` 117-128); `l` is `this`. -/
def spliceAfter (h : FHeap V) (l before other beforeFirst beforeLast : Nat) : Option (FHeap V) :=
  if l = other then none
  else if beforeFirst = beforeLast then some h
  else do
    let n ← h.nextOf beforeFirst
    let originalNext ← h.nextOf before
    let h ← h.setNext before n
    let m ← h.nextOf beforeLast
    let h ← h.setNext beforeLast originalNext
    h.setNext beforeFirst m

/-- `swap` (`forward_linked_list.cpp` 78-80). -/
def swap (h : FHeap V) (a b : Nat) : Option (FHeap V) := do
  let na ← h.nextOf a
  let nb ← h.nextOf b
  let h ← h.setNext a nb
  h.setNext b na

/-- `clear` (`clear.cpp` 36-42, `pop_front.cpp` 20-22). -/
def clearLoop : Nat → FHeap V → Nat → Option (FHeap V)
  | 0, _, _ => none
  | n + 1, h, l => do
    let first ← h.nextOf l
    match first with
    | none => some h
    | some _ => do
      let r ← h.eraseAfter l
      clearLoop n r.1 l

/-- `clear` (`clear.cpp` 27-44). The loop gets as many steps as there can be nodes. -/
def clear (h : FHeap V) (l : Nat) : Option (FHeap V) := clearLoop (h.next + 1) h l

/-- The destructor (`forward_linked_list.cpp` 63-65). -/
def dropList (h : FHeap V) (l : Nat) : Option (FHeap V) := do
  let h ← h.clear l
  h.freeList l

/-- `append_after` (`append_after.cpp` 23-28), also `assign_to_empty` (`assign_to_empty.cpp`
87-90) starting at `before_begin()`; the element with index `fail` throws. -/
def appendAfter (h : FHeap V) (before : Nat) : List V → Option Nat → Out (FHeap V)
  | [], _ => .ok h
  | v :: vs, fail =>
    let it := h.next
    (h.insertAfter before v (fail == some 0)).andThen fun h => appendAfter h it vs (fail.map (· - 1))

/-- Construction from a range (`forward_linked_list.cpp` 43-45); when it throws, the body of
the destructor does not run. -/
def makeFrom (h : FHeap V) (vs : List V) (fail : Option Nat) : Out (FHeap V) :=
  let l := h.next
  match h.makeList.appendAfter l vs fail with
  | .ok h => .ok h
  | .exn h => .exn { h with cell := upd h.cell l none }
  | .ub => .ub

/-- Traversal from an iterator to the end. -/
def walk : Nat → FHeap V → Option Nat → Option (List V)
  | 0, _, _ => none
  | _ + 1, _, none => some []
  | n + 1, h, some a =>
    match h.cell a with
    | some ⟨nx, some v⟩ => (walk n h nx).map (v :: ·)
    | _ => none

/-- `begin() .. end()` -/
def forward (h : FHeap V) (l : Nat) : Option (List V) := do
  let first ← h.nextOf l
  walk (h.next + 1) h first

/-- Copy construction (`forward_linked_list.cpp` 59-61). -/
def copyOf (h : FHeap V) (src : Nat) (fail : Option Nat) : Out (FHeap V) :=
  match h.forward src with
  | none => .ub
  | some vs => h.makeFrom vs fail

/-- Move construction (`forward_linked_list.cpp` 55-57). -/
def moveOf (h : FHeap V) (src : Nat) : Option (FHeap V) := h.makeList.swap h.next src

/-- `erase_after` of a range (`algorithms/erase.cpp` 122-128). -/
def eraseRangeLoop : Nat → FHeap V → Nat → Option Nat → Option Nat → Option (FHeap V)
  | 0, _, _, _, _ => none
  | n + 1, h, before, it, last =>
    if it = last then some h
    else do
      let r ← h.eraseAfter before
      eraseRangeLoop n r.1 before r.2 last

/-- `erase_after` of a range (see the loop above), from the node after `before` on. -/
def eraseRange (h : FHeap V) (before : Nat) (last : Option Nat) : Option (FHeap V) := do
  let it ← h.nextOf before
  eraseRangeLoop (h.next + 1) h before it last

/-- `*it = value` -/
def setVal (h : FHeap V) (a : Nat) (v : V) : Option (FHeap V) :=
  match h.cell a with
  | some ⟨n, some _⟩ => some { h with cell := upd h.cell a (some ⟨n, some v⟩) }
  | _ => none

/-- `copy_truncate_after` (`algorithms/copy.cpp` 44-56, 75-98): the last element assigned to
(`before_begin()` if none) and the values not used. -/
def copyTruncateAfter (h : FHeap V) (before : Nat) (left : V) : Option Nat → List V → Option Nat → Out (FHeap V × Nat × List V × Option Nat)
  | _, [], fail => .ok (h, before, [], fail)
  | none, v :: vs, fail => .ok (h, before, v :: vs, fail)
  | some it, v :: vs, fail =>
    if fail = some 0 then
      match h.setVal it left with
      | none => .ub
      | some h => .exn (h, before, v :: vs, fail)
    else match h.setVal it v, h.nextOf it with
      | some h, some nx => copyTruncateAfter h it left nx vs (fail.map (· - 1))
      | _, _ => .ub

/-- `assign` (`assign.cpp` 74-77). -/
def assign (h : FHeap V) (l : Nat) (vs : List V) (left : V) (fail : Option Nat) : Out (FHeap V) :=
  match h.nextOf l with
  | none => .ub
  | some b =>
    match h.copyTruncateAfter l left b vs fail with
    | .ub => .ub
    | .exn (h, _) => .exn h
    | .ok (h, out, rest, fail) =>
      match h.eraseRange out none with
      | none => .ub
      | some h => h.appendAfter out rest fail

/-- Copy assignment (`forward_linked_list.cpp` 71-76). -/
def copyAssign (h : FHeap V) (l src : Nat) (left : V) (fail : Option Nat) : Out (FHeap V) :=
  if l = src then .ok h
  else match h.forward src with
    | none => .ub
    | some vs => h.assign l vs left fail

end FHeap

/-- What a user can do with singly linked lists. -/
inductive FOp (V : Type) where
  | new
  | newFrom (vs : List V) (fail : Option Nat)
  | copyOf (src : Nat) (fail : Option Nat)
  | moveOf (src : Nat)
  | drop (l : Nat)
  | pushFront (l : Nat) (v : V) (fail : Bool)
  | popFront (l : Nat)
  | insertAfter (l pos : Nat) (v : V) (fail : Bool)
  | appendAfter (l pos : Nat) (vs : List V) (fail : Option Nat)
  | eraseAfter (l pos : Nat)
  | eraseRange (l pos : Nat) (last : Option Nat)
  | spliceAfter (l pos o beforeFirst beforeLast : Nat)
  | clear (l : Nat)
  | swap (a b : Nat)
  | moveAssign (a b : Nat)
  | assign (l : Nat) (vs : List V) (left : V) (fail : Option Nat)
  | copyAssign (l src : Nat) (left : V) (fail : Option Nat)

/-- One operation of the library. -/
def fstep (h : FHeap V) : FOp V → Out (FHeap V)
  | .new => .ok h.makeList
  | .newFrom vs fail => h.makeFrom vs fail
  | .copyOf src fail => h.copyOf src fail
  | .moveOf src => ptr (h.moveOf src)
  | .drop l => ptr (h.dropList l)
  | .pushFront l v fail => h.insertAfter l v fail
  | .popFront l => ptr ((h.eraseAfter l).map (·.1))
  | .insertAfter _ pos v fail => h.insertAfter pos v fail
  | .appendAfter _ pos vs fail => h.appendAfter pos vs fail
  | .eraseAfter _ pos => ptr ((h.eraseAfter pos).map (·.1))
  | .eraseRange _ pos last => ptr (h.eraseRange pos last)
  | .spliceAfter l pos o bf bl => ptr (h.spliceAfter l pos o bf bl)
  | .clear l => ptr (h.clear l)
  | .swap a b => ptr (h.swap a b)
  -- `forward_linked_list.cpp` 67-70
  | .moveAssign a b => ptr (h.swap a b)
  | .assign l vs left fail => h.assign l vs left fail
  | .copyAssign l src left fail => h.copyAssign l src left fail

/-! ## Specification -/

/-- The nodes up to and including a position. -/
def upTo (l p : Nat) (xs : List (Nat × V)) : List (Nat × V) :=
  if p = l then [] else before p xs ++ (fromPos p xs).take 1
/-- The nodes behind a position. -/
def behind (l p : Nat) (xs : List (Nat × V)) : List (Nat × V) :=
  if p = l then xs else (fromPos p xs).tail

namespace Abs

/-- Assignment of a sequence of values: nodes are reused as far as they go. -/
def fassign (A : Abs V) (l : Nat) (vs : List V) (left : V) (fail : Option Nat) : Abs V × Bool :=
  let xs := A.at' l
  let n := made vs.length fail
  if n < min xs.length vs.length then (A.set l (assignFail left xs vs n), true)
  else
    ((A.set l (xs.zipWith (fun x v => (x.1, v)) vs ++ number A.next ((vs.drop xs.length).take (n - xs.length)))).use
      (n - xs.length), decide (n < vs.length))

/-- What an operation does, and whether it throws. -/
def fspec (A : Abs V) : FOp V → Abs V × Bool
  | .new => ((A.set A.next []).use 1, false)
  | .newFrom vs fail =>
    if made vs.length fail < vs.length then (A.use 1, true)
    else ((A.set A.next (number (A.next + 1) vs)).use (1 + vs.length), false)
  | .copyOf src fail =>
    let vs := (A.at' src).map (·.2)
    if made vs.length fail < vs.length then (A.use 1, true)
    else ((A.set A.next (number (A.next + 1) vs)).use (1 + vs.length), false)
  | .moveOf src => (((A.set A.next (A.at' src)).set src []).use 1, false)
  | .drop l => ({ A with lists := upd A.lists l none }, false)
  | .pushFront l v fail => if fail then (A, true) else ((A.set l ((A.next, v) :: A.at' l)).use 1, false)
  | .popFront l => (A.set l (A.at' l).tail, false)
  | .insertAfter l pos v fail =>
    if fail then (A, true) else ((A.set l (upTo l pos (A.at' l) ++ (A.next, v) :: behind l pos (A.at' l))).use 1, false)
  | .appendAfter l pos vs fail =>
    ((A.set l (upTo l pos (A.at' l) ++ number A.next (vs.take (made vs.length fail)) ++ behind l pos (A.at' l))).use
      (made vs.length fail), decide (made vs.length fail < vs.length))
  | .eraseAfter l pos => (A.set l (upTo l pos (A.at' l) ++ (behind l pos (A.at' l)).tail), false)
  | .eraseRange l pos last =>
    (A.set l (upTo l pos (A.at' l) ++ match last with
      | none => []
      | some q => fromPos q (behind l pos (A.at' l))), false)
  | .spliceAfter l pos o bf bl =>
    let xs := A.at' o
    ((A.set o (upTo o bf xs ++ behind o bl xs)).set l
      (upTo l pos (A.at' l) ++ (upTo o bl xs).drop (upTo o bf xs).length ++ behind l pos (A.at' l)), false)
  | .clear l => (A.set l [], false)
  | .swap a b | .moveAssign a b => ((A.set a (A.at' b)).set b (A.at' a), false)
  | .assign l vs left fail => A.fassign l vs left fail
  | .copyAssign l src left fail => if l = src then (A, false) else A.fassign l ((A.at' src).map (·.2)) left fail

/-- What the caller has to provide. Stronger than it should be in one place: a construction
that throws must do so before the first element was made (`C32_failed_copy_violated`). -/
def fpre (A : Abs V) : FOp V → Prop
  | .new => True
  | .newFrom vs fail => made vs.length fail = 0 ∨ made vs.length fail = vs.length
  | .copyOf src fail => A.Has src ∧ (made (A.at' src).length fail = 0 ∨ made (A.at' src).length fail = (A.at' src).length)
  | .moveOf src => A.Has src
  | .drop l | .pushFront l _ _ | .clear l => A.Has l
  | .popFront l => A.Has l ∧ A.at' l ≠ []
  | .insertAfter l pos _ _ | .appendAfter l pos _ _ => A.Has l ∧ ValidPos l (A.at' l) pos
  | .eraseAfter l pos => A.Has l ∧ ValidPos l (A.at' l) pos ∧ behind l pos (A.at' l) ≠ []
  | .eraseRange l pos last => A.Has l ∧ ValidPos l (A.at' l) pos ∧ match last with
    | none => True
    | some q => q ∈ ids (behind l pos (A.at' l))
  | .spliceAfter l pos o bf bl =>
    A.Has l ∧ A.Has o ∧ l ≠ o ∧ ValidPos l (A.at' l) pos ∧ ValidPos o (A.at' o) bf ∧ ValidPos o (A.at' o) bl ∧
      (upTo o bf (A.at' o)).length ≤ (upTo o bl (A.at' o)).length
  | .swap a b | .moveAssign a b => A.Has a ∧ A.Has b
  | .assign l _ _ _ => A.Has l
  | .copyAssign l src _ _ => A.Has l ∧ A.Has src

end Abs

end Verif.Lists
