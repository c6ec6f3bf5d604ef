import Verif.Lists.Prims

/-!
# Doubly linked lists: the operations of a user, and any history of them

Models `source/containers/bidirectional_linked_list.cpp` 60-165 and the generic functions
that work on it: `clear.cpp`, `insert.cpp` (the branch for splicable containers),
`algorithms/erase.cpp` (likewise), `algorithms/splice.cpp`, `push_front.cpp`,
`lazy_push_front.cpp`, `pop_front.cpp`, `append.cpp` 74-82, `assign.cpp` 81-91.

Not modelled: `resize` (needs a size, which the list does not have), sources that are
rvalues of the same type or that alias the target, comparison.
-/

namespace Verif.Lists

variable {V : Type}

/-- Pointer code in a larger operation. -/
def ptr {S : Type} : Option S → Out S
  | none => .ub
  | some s => .ok s

namespace LHeap

/-- `lazy_push_back` (`bidirectional_linked_list.cpp` 137-141). `fail`: the allocation or
the construction of the element throws; `make_node` then frees what it allocated
(`linked_list_helper.cpp` 46-51), and nothing was linked. -/
def pushBack (h : LHeap V) (l : Nat) (v : V) (fail : Bool) : Out (LHeap V) :=
  if fail then .exn h else ptr (h.pushNode l v)

/-- `append` (`append.cpp` 74-82), also `assign_to_empty` (`assign_to_empty.cpp` 83-86):
`lazy_push_back` of every element; the element with index `fail` throws. -/
def append (h : LHeap V) (l : Nat) : List V → Option Nat → Out (LHeap V)
  | [], _ => .ok h
  | v :: vs, fail => (h.pushBack l v (fail == some 0)).andThen fun h => append h l vs (fail.map (· - 1))

/-- Construction from a range (`bidirectional_linked_list.cpp` 67-69). When it throws the
body of the destructor does not run, only the storage of the sentinel is released. -/
def makeFrom (h : LHeap V) (vs : List V) (fail : Option Nat) : Out (LHeap V) :=
  let l := h.next
  match h.makeList.append l vs fail with
  | .ok h => .ok h
  | .exn h => .exn { h with cell := upd h.cell l none }
  | .ub => .ub

/-- The destructor (`bidirectional_linked_list.cpp` 87-89). -/
def dropList (h : LHeap V) (l : Nat) : Option (LHeap V) := do
  let h ← h.clear l
  h.freeList l

/-- Copy construction (`bidirectional_linked_list.cpp` 83-85). -/
def copyOf (h : LHeap V) (src : Nat) (fail : Option Nat) : Out (LHeap V) :=
  match h.forward src with
  | none => .ub
  | some vs => h.makeFrom vs fail

/-- Move construction (`bidirectional_linked_list.cpp` 79-81). -/
def moveOf (h : LHeap V) (src : Nat) : Option (LHeap V) := h.makeList.swap h.next src

/-- `splice` of a whole list (`algorithms/splice.cpp` 31-42). -/
def spliceAll (h : LHeap V) (position other : Nat) : Option (LHeap V) := do
  let first ← h.nextOf other
  h.splice position first other

/-- `splice` of one element (`algorithms/splice.cpp` 53-66). -/
def spliceOne (h : LHeap V) (position other it : Nat) : Option (LHeap V) :=
  if it = other then none
  else do
    let last ← h.nextOf it
    h.splice position it last

/-- `insert` of a range (`insert.cpp` 110-113): a temporary list is built, spliced and
destroyed. (The iterator returned is `position`.) -/
def insert (h : LHeap V) (position : Nat) (vs : List V) (fail : Option Nat) : Out (LHeap V) :=
  let t := h.next
  (h.makeFrom vs fail).andThen fun h => ptr do
    let h ← h.spliceAll position t
    h.dropList t

/-- `erase` (`algorithms/erase.cpp` 40-43): the range is spliced into a temporary list. -/
def erase (h : LHeap V) (first last : Nat) : Option (LHeap V) := do
  let t := h.next
  let h := h.makeList
  let b ← h.nextOf t
  let h ← h.splice b first last
  h.dropList t

/-- `erase` of one element (`algorithms/erase.cpp` 71-75). -/
def eraseOne (h : LHeap V) (l it : Nat) : Option (LHeap V) :=
  if it = l then none
  else do
    let last ← h.nextOf it
    h.erase it last

/-- `pop_front` (`pop_front.cpp` 18-19). -/
def popFront (h : LHeap V) (l : Nat) : Option (LHeap V) := do
  let b ← h.nextOf l
  h.eraseOne l b

/-- `lazy_push_front` (`lazy_push_front.cpp` 37-42). -/
def pushFront (h : LHeap V) (l : Nat) (v : V) (fail : Bool) : Out (LHeap V) :=
  let t := h.next
  match h.makeList.pushBack t v fail with
  | .ub => .ub
  | .exn h => match h.dropList t with
    | none => .ub
    | some h => .exn h
  | .ok h => ptr do
    let b ← h.nextOf l
    let h ← h.spliceAll b t
    h.dropList t

/-- `erase_if` (`algorithms/erase.cpp` 93-101); the count is the second component. A loop
that does not end within the given number of steps counts as undefined behaviour. -/
def eraseIfLoop (p : V → Bool) : Nat → LHeap V → Nat → Nat → Nat → Option (LHeap V × Nat)
  | 0, _, _, _, _ => none
  | n + 1, h, l, it, result =>
    if it = l then some (h, result)
    else match h.cell it with
      | some ⟨_, nx, some v⟩ =>
        if p v then do
          let h ← h.eraseOne l it
          eraseIfLoop p n h l nx (result + 1)
        else eraseIfLoop p n h l nx result
      | _ => none

/-- `erase_if` (`algorithms/erase.cpp` 91-101), from the first element on. -/
def eraseIf (h : LHeap V) (l : Nat) (p : V → Bool) : Option (LHeap V × Nat) := do
  let b ← h.nextOf l
  eraseIfLoop p (h.next + 1) h l b 0

/-- `*it = value` -/
def setVal (h : LHeap V) (a : Nat) (v : V) : Option (LHeap V) :=
  match h.cell a with
  | some ⟨p, n, some _⟩ => some { h with cell := upd h.cell a (some ⟨p, n, some v⟩) }
  | _ => none

/-- `copy_truncate` (`algorithms/copy.cpp` 44-73): assigns to existing elements; the
assignment with index `fail` throws and leaves `left` in the element. Gives the position
reached and the values not yet used. -/
def copyTruncate (h : LHeap V) (l it : Nat) (left : V) : List V → Option Nat → Out (LHeap V × Nat × List V × Option Nat)
  | [], fail => .ok (h, it, [], fail)
  | v :: vs, fail =>
    if it = l then .ok (h, it, v :: vs, fail)
    else if fail = some 0 then
      match h.setVal it left with
      | none => .ub
      | some h => .exn (h, it, v :: vs, fail)
    else match h.setVal it v, h.nextOf it with
      | some h, some nx => copyTruncate h l nx left vs (fail.map (· - 1))
      | _, _ => .ub

/-- `assign` (`assign.cpp` 81-91). -/
def assign (h : LHeap V) (l : Nat) (vs : List V) (left : V) (fail : Option Nat) : Out (LHeap V) :=
  match h.nextOf l with
  | none => .ub
  | some b =>
    match h.copyTruncate l b left vs fail with
    | .ub => .ub
    | .exn (h, _) => .exn h
    | .ok (h, it, rest, fail) =>
      match h.erase it l with
      | none => .ub
      | some h => h.append l rest fail

/-- Copy assignment (`bidirectional_linked_list.cpp` 95-100). -/
def copyAssign (h : LHeap V) (l src : Nat) (left : V) (fail : Option Nat) : Out (LHeap V) :=
  if l = src then .ok h
  else match h.forward src with
    | none => .ub
    | some vs => h.assign l vs left fail

end LHeap

/-- What a user can do. Lists and positions are named by addresses; the position of `end()`
is the address of the list. -/
inductive LOp (V : Type) where
  | new
  | newFrom (vs : List V) (fail : Option Nat)
  | copyOf (src : Nat) (fail : Option Nat)
  | moveOf (src : Nat)
  | drop (l : Nat)
  | pushBack (l : Nat) (v : V) (fail : Bool)
  | pushFront (l : Nat) (v : V) (fail : Bool)
  | popBack (l : Nat)
  | popFront (l : Nat)
  | append (l : Nat) (vs : List V) (fail : Option Nat)
  | insert (l pos : Nat) (vs : List V) (fail : Option Nat)
  | erase (l first last : Nat)
  | eraseIf (l : Nat) (p : V → Bool)
  | clear (l : Nat)
  | splice (l pos o first last : Nat)
  | spliceAll (l pos o : Nat)
  | spliceOne (l pos o it : Nat)
  | swap (a b : Nat)
  | moveAssign (a b : Nat)
  | assign (l : Nat) (vs : List V) (left : V) (fail : Option Nat)
  | copyAssign (l src : Nat) (left : V) (fail : Option Nat)

/-- One operation of the library. -/
def lstep (h : LHeap V) : LOp V → Out (LHeap V)
  | .new => .ok h.makeList
  | .newFrom vs fail => h.makeFrom vs fail
  | .copyOf src fail => h.copyOf src fail
  | .moveOf src => ptr (h.moveOf src)
  | .drop l => ptr (h.dropList l)
  | .pushBack l v fail => h.pushBack l v fail
  | .pushFront l v fail => h.pushFront l v fail
  | .popBack l => ptr (h.popBack l)
  | .popFront l => ptr (h.popFront l)
  | .append l vs fail => h.append l vs fail
  | .insert _ pos vs fail => h.insert pos vs fail
  | .erase _ first last => ptr (h.erase first last)
  | .eraseIf l p => ptr ((h.eraseIf l p).map (·.1))
  | .clear l => ptr (h.clear l)
  | .splice _ pos _ first last => ptr (h.splice pos first last)
  | .spliceAll _ pos o => ptr (h.spliceAll pos o)
  | .spliceOne _ pos o it => ptr (h.spliceOne pos o it)
  | .swap a b => ptr (h.swap a b)
  -- `bidirectional_linked_list.cpp` 91-94
  | .moveAssign a b => ptr (h.swap a b)
  | .assign l vs left fail => h.assign l vs left fail
  | .copyAssign l src left fail => h.copyAssign l src left fail

/-! ## Specification: sequences of nodes -/

/-- The nodes before a position. -/
def before (p : Nat) (xs : List (Nat × V)) : List (Nat × V) := xs.takeWhile (·.1 ≠ p)
/-- The nodes from a position on. -/
def fromPos (p : Nat) (xs : List (Nat × V)) : List (Nat × V) := xs.dropWhile (·.1 ≠ p)
/-- The nodes of the range `[first, last)`. -/
def within (first last : Nat) (xs : List (Nat × V)) : List (Nat × V) := before last (fromPos first xs)
/-- The nodes outside the range `[first, last)`. -/
def outside (first last : Nat) (xs : List (Nat × V)) : List (Nat × V) := before first xs ++ fromPos last (fromPos first xs)

/-- New nodes for the given values. -/
def number (n : Nat) : List V → List (Nat × V)
  | [] => []
  | v :: vs => (n, v) :: number (n + 1) vs

/-- A position in a list. -/
def ValidPos (l : Nat) (xs : List (Nat × V)) (p : Nat) : Prop := p = l ∨ p ∈ ids xs
/-- A range in a list. -/
def ValidRange (l : Nat) (xs : List (Nat × V)) (first last : Nat) : Prop :=
  ValidPos l xs first ∧ ValidPos l (fromPos first xs) last

namespace Abs

/-- The nodes of a list. -/
def at' (A : Abs V) (l : Nat) : List (Nat × V) := (A.lists l).getD []
/-- A list gets other nodes. -/
def set (A : Abs V) (l : Nat) (xs : List (Nat × V)) : Abs V := { A with lists := upd A.lists l (some xs) }
/-- Identities used up by an operation (temporary lists). -/
def use (A : Abs V) (n : Nat) : Abs V := { A with next := A.next + n }

/-- How many of `n` elements are made when the one with index `fail` throws. -/
def made (n : Nat) : Option Nat → Nat
  | none => n
  | some k => min k n

/-- Values assigned to existing nodes, until the one with index `k` throws. -/
def assignFail (left : V) : List (Nat × V) → List V → Nat → List (Nat × V)
  | x :: xs, _ :: _, 0 => (x.1, left) :: xs
  | x :: xs, v :: vs, k + 1 => (x.1, v) :: assignFail left xs vs k
  | xs, _, _ => xs

/-- Assignment of a sequence of values: nodes are reused as far as they go. -/
def assignTo (A : Abs V) (l : Nat) (vs : List V) (left : V) (fail : Option Nat) : Abs V × Bool :=
  let xs := A.at' l
  let n := made vs.length fail
  if n < min xs.length vs.length then (A.set l (assignFail left xs vs n), true)
  else
    ((A.set l (xs.zipWith (fun x v => (x.1, v)) vs ++ number (A.next + 1) ((vs.drop xs.length).take (n - xs.length)))).use
      (1 + (n - xs.length)), decide (n < vs.length))

/-- What an operation does, and whether it throws. -/
def spec (A : Abs V) : LOp V → Abs V × Bool
  | .new => ((A.set A.next []).use 1, false)
  | .newFrom vs fail =>
    if made vs.length fail < vs.length then (A.use 1, true)
    else ((A.set A.next (number (A.next + 1) vs)).use (1 + vs.length), false)
  | .copyOf src fail =>
    let vs := (A.at' src).map (·.2)
    if made vs.length fail < vs.length then (A.use 1, true)
    else ((A.set A.next (number (A.next + 1) vs)).use (1 + vs.length), false)
  | .moveOf src => (((A.set A.next (A.at' src)).set src []).use 1, false)
  | .drop l => ({ A with lists := upd A.lists l none }, false)
  | .pushBack l v fail => if fail then (A, true) else ((A.set l (A.at' l ++ [(A.next, v)])).use 1, false)
  | .pushFront l v fail =>
    if fail then (A.use 1, true) else ((A.set l ((A.next + 1, v) :: A.at' l)).use 2, false)
  | .popBack l => (A.set l (A.at' l).dropLast, false)
  | .popFront l => ((A.set l (A.at' l).tail).use 1, false)
  | .append l vs fail =>
    ((A.set l (A.at' l ++ number A.next (vs.take (made vs.length fail)))).use (made vs.length fail),
      decide (made vs.length fail < vs.length))
  | .insert l pos vs fail =>
    if made vs.length fail < vs.length then (A.use 1, true)
    else ((A.set l (before pos (A.at' l) ++ number (A.next + 1) vs ++ fromPos pos (A.at' l))).use (1 + vs.length), false)
  | .erase l first last => ((A.set l (outside first last (A.at' l))).use 1, false)
  | .eraseIf l p => ((A.set l ((A.at' l).filter fun x => !p x.2)).use ((A.at' l).countP fun x => p x.2), false)
  | .clear l => (A.set l [], false)
  | .splice l pos o first last =>
    let mid := within first last (A.at' o)
    let A' := A.set o (outside first last (A.at' o))
    (A'.set l (before pos (A'.at' l) ++ mid ++ fromPos pos (A'.at' l)), false)
  | .spliceAll l pos o =>
    let A' := A.set o []
    (A'.set l (before pos (A'.at' l) ++ A.at' o ++ fromPos pos (A'.at' l)), false)
  | .spliceOne l pos o it =>
    let mid := (A.at' o).filter (·.1 = it)
    let A' := A.set o ((A.at' o).filter (·.1 ≠ it))
    (A'.set l (before pos (A'.at' l) ++ mid ++ fromPos pos (A'.at' l)), false)
  | .swap a b | .moveAssign a b => ((A.set a (A.at' b)).set b (A.at' a), false)
  | .assign l vs left fail => A.assignTo l vs left fail
  | .copyAssign l src left fail => if l = src then (A, false) else A.assignTo l ((A.at' src).map (·.2)) left fail

/-- The list exists. -/
def Has (A : Abs V) (l : Nat) : Prop := ∃ xs, A.lists l = some xs

/-- What the caller has to provide. Stronger than it should be in two places: a construction
that throws must do so before the first element was made (`C31_failed_copy_violated`), and a
range must not be spliced to the place where it is (`C31_splice_in_place_violated`). -/
def pre (A : Abs V) : LOp V → Prop
  | .new => True
  | .newFrom vs fail => made vs.length fail = 0 ∨ made vs.length fail = vs.length
  | .copyOf src fail => A.Has src ∧ (made (A.at' src).length fail = 0 ∨ made (A.at' src).length fail = (A.at' src).length)
  | .moveOf src => A.Has src
  | .drop l => A.Has l
  | .pushBack l _ _ | .pushFront l _ _ | .append l _ _ | .clear l | .eraseIf l _ => A.Has l
  | .popBack l | .popFront l => A.Has l ∧ A.at' l ≠ []
  | .insert l pos vs fail => A.Has l ∧ ValidPos l (A.at' l) pos ∧ (made vs.length fail = 0 ∨ made vs.length fail = vs.length)
  | .erase l first last => A.Has l ∧ ValidRange l (A.at' l) first last
  | .splice l pos o first last =>
    A.Has l ∧ A.Has o ∧ ValidRange o (A.at' o) first last ∧
      ValidPos l ((A.set o (outside first last (A.at' o))).at' l) pos ∧ (first ≠ last → pos ≠ last)
  | .spliceAll l pos o => A.Has l ∧ A.Has o ∧ l ≠ o ∧ ValidPos l (A.at' l) pos
  | .spliceOne l pos o it =>
    A.Has l ∧ A.Has o ∧ it ∈ ids (A.at' o) ∧ ValidPos l ((A.set o ((A.at' o).filter (·.1 ≠ it))).at' l) pos ∧
      pos ≠ headId ((fromPos it (A.at' o)).tail) o
  | .swap a b | .moveAssign a b => A.Has a ∧ A.Has b
  | .assign l _ _ _ => A.Has l
  | .copyAssign l src _ _ => A.Has l ∧ A.Has src

end Abs

end Verif.Lists
