import Verif.Lists.BidirProps

/-!
# Lists that know their size

Models `sized_list` (`source/containers/std/list.cpp` 50-128), the implementation of
`std_containers::list`: a doubly linked list together with a counter. The functions of the
library that work on it (`clear`, `erase`, `insert`, `append`, `assign`, `push_front`,
`pop_front`, `erase_if`, `resize`) are programs that call the member functions of
`sized_list`, so they are modelled again here, on top of the pointer code of `Heap.lean`.

Not modelled: comparison other than equality, `merge`, `reverse`, `unique` and `sort` of
`std_containers::list` (they do nothing, lines 369-380 and 408-426), the `splice` functions
of `std_containers::list` (lines 382-399 pass a `list` where a `sized_list` is required).
-/

namespace Verif.Lists

variable {V : Type}

/-- The memory, and the counter `m_size` of the list at every address. `m_size` is a
`std::size_t`; the model keeps an integer of which `size()` is the residue modulo `2 ^ 64`,
which is the same thing because the code only adds, subtracts, copies and compares. -/
structure SHeap (V : Type) where
  h : LHeap V
  size : Nat → Int

/-- Put the counters back around the result of pointer code. -/
def withSize (f : Nat → Int) : Out (LHeap V) → Out (SHeap V)
  | .ok h => .ok ⟨h, f⟩
  | .exn h => .exn ⟨h, f⟩
  | .ub => .ub

namespace SHeap

/-- `size()` (`std/list.cpp` 86-88). -/
def sizeOf (s : SHeap V) (l : Nat) : Nat := (s.size l % 2 ^ 64).toNat

/-- Default construction (`std/list.cpp` 56, 127). -/
def makeList (s : SHeap V) : SHeap V := ⟨s.h.makeList, upd s.size s.h.next 0⟩

/-- `lazy_push_back` (`std/list.cpp` 94-98): nothing is counted if it throws. -/
def pushBack (s : SHeap V) (l : Nat) (v : V) (fail : Bool) : Out (SHeap V) :=
  match s.h.pushBack l v fail with
  | .ok h => .ok ⟨h, upd s.size l (s.size l + 1)⟩
  | .exn h => .exn ⟨h, s.size⟩
  | .ub => .ub

/-- `pop_back` (`std/list.cpp` 100-103). -/
def popBack (s : SHeap V) (l : Nat) : Option (SHeap V) := do
  let h ← s.h.popBack l
  some ⟨h, upd s.size l (s.size l - 1)⟩

/-- `distance` (`algorithms/distance.cpp` 19-30), the branch that counts. A loop that does not
end within the given number of steps counts as undefined behaviour. -/
def distanceLoop : Nat → LHeap V → Nat → Nat → Nat → Option Nat
  | 0, _, _, _, _ => none
  | n + 1, h, first, last, d =>
    if first = last then some d
    else do
      let nx ← h.nextOf first
      distanceLoop n h nx last (d + 1)

/-- `distance` -/
def distance (s : SHeap V) (first last : Nat) : Option Nat := distanceLoop (s.h.next + 1) s.h first last 0

/-- `splice` of a range (`std/list.cpp` 105-112). -/
def splice (s : SHeap V) (l pos o first last : Nat) : Option (SHeap V) := do
  let size ← if o ≠ l then do
      let count ← s.distance first last
      let f := upd s.size o (s.size o - count)
      some (upd f l (f l + count))
    else some s.size
  let h ← s.h.splice pos first last
  some ⟨h, size⟩

/-- `splice` of one element (`std/list.cpp` 113-117), called through
`algorithms/splice.cpp` 53-66, which checks that it is not the end. -/
def spliceOne (s : SHeap V) (l pos o it : Nat) : Option (SHeap V) := do
  let h ← s.h.spliceOne pos o it
  let f := upd s.size o (s.size o - 1)
  some ⟨h, upd f l (f l + 1)⟩

/-- `splice` of a whole list (`std/list.cpp` 118-121). -/
def spliceAll (s : SHeap V) (l pos o : Nat) : Option (SHeap V) := do
  let h ← s.h.spliceAll pos o
  let f := upd s.size o 0
  some ⟨h, upd f l (f l + s.size o)⟩

/-- The destructor: implicitly declared, so the one of the member `m_impl`. -/
def dropList (s : SHeap V) (l : Nat) : Option (SHeap V) := do
  let h ← s.h.dropList l
  some ⟨h, s.size⟩

/-- `swap` (`std/list.cpp` 67-70). -/
def swap (s : SHeap V) (a b : Nat) : Option (SHeap V) := do
  let h ← s.h.swap a b
  some ⟨h, upd (upd s.size a (s.size b)) b (s.size a)⟩

/-- `clear` (`clear.cpp` 27-44): the loop with `pop_back`. -/
def clearLoop : Nat → SHeap V → Nat → Option (SHeap V)
  | 0, _, _ => none
  | n + 1, s, l => do
    let first ← s.h.nextOf l
    if first = l then some s
    else
      let s ← s.popBack l
      clearLoop n s l

/-- `clear` (`clear.cpp` 27-44). The loop gets as many steps as there can be nodes. -/
def clear (s : SHeap V) (l : Nat) : Option (SHeap V) := clearLoop (s.h.next + 1) s l

/-- `append` (`append.cpp` 74-82), also `assign_to_empty` (`assign_to_empty.cpp` 83-86). -/
def append (s : SHeap V) (l : Nat) : List V → Option Nat → Out (SHeap V)
  | [], _ => .ok s
  | v :: vs, fail => (s.pushBack l v (fail == some 0)).andThen fun s => append s l vs (fail.map (· - 1))

/-- Construction from a range (`std/list.cpp` 60-62). When the body throws, the member
`m_impl` is complete and its destructor runs. -/
def makeFrom (s : SHeap V) (vs : List V) (fail : Option Nat) : Out (SHeap V) :=
  let l := s.h.next
  match s.makeList.append l vs fail with
  | .ok s => .ok s
  | .exn s => match s.dropList l with
    | some s => .exn s
    | none => .ub
  | .ub => .ub

/-- Copy construction (`std/list.cpp` 58, defaulted): member by member. -/
def copyOf (s : SHeap V) (src : Nat) (fail : Option Nat) : Out (SHeap V) :=
  withSize (upd s.size s.h.next (s.size src)) (s.h.copyOf src fail)

/-- Move construction (`std/list.cpp` 57, defaulted): member by member, so the counter is
copied. -/
def moveOf (s : SHeap V) (src : Nat) : Option (SHeap V) := do
  let h ← s.h.moveOf src
  some ⟨h, upd s.size s.h.next (s.size src)⟩

/-- Move assignment (`std/list.cpp` 64, defaulted): member by member. -/
def moveAssign (s : SHeap V) (a b : Nat) : Option (SHeap V) := do
  let h ← s.h.swap a b
  some ⟨h, upd s.size a (s.size b)⟩

/-- Copy assignment (`std/list.cpp` 65, defaulted): member by member; if assigning the
elements throws, the counter stays. -/
def copyAssign (s : SHeap V) (l src : Nat) (left : V) (fail : Option Nat) : Out (SHeap V) :=
  match s.h.copyAssign l src left fail with
  | .ok h => .ok ⟨h, upd s.size l (s.size src)⟩
  | .exn h => .exn ⟨h, s.size⟩
  | .ub => .ub

/-- `insert` of a range (`insert.cpp` 110-113). -/
def insert (s : SHeap V) (l pos : Nat) (vs : List V) (fail : Option Nat) : Out (SHeap V) :=
  let t := s.h.next
  (s.makeFrom vs fail).andThen fun s => ptr do
    let s ← s.spliceAll l pos t
    s.dropList t

/-- `erase` (`algorithms/erase.cpp` 40-43). -/
def erase (s : SHeap V) (l first last : Nat) : Option (SHeap V) := do
  let t := s.h.next
  let s := s.makeList
  let b ← s.h.nextOf t
  let s ← s.splice t b l first last
  s.dropList t

/-- `erase` of one element (`algorithms/erase.cpp` 71-75). -/
def eraseOne (s : SHeap V) (l it : Nat) : Option (SHeap V) :=
  if it = l then none
  else do
    let last ← s.h.nextOf it
    s.erase l it last

/-- `pop_front` (`pop_front.cpp` 18-19). -/
def popFront (s : SHeap V) (l : Nat) : Option (SHeap V) := do
  let b ← s.h.nextOf l
  s.eraseOne l b

/-- `lazy_push_front` (`lazy_push_front.cpp` 37-42). -/
def pushFront (s : SHeap V) (l : Nat) (v : V) (fail : Bool) : Out (SHeap V) :=
  let t := s.h.next
  match s.makeList.pushBack t v fail with
  | .ub => .ub
  | .exn s => match s.dropList t with
    | none => .ub
    | some s => .exn s
  | .ok s => ptr do
    let b ← s.h.nextOf l
    let s ← s.spliceAll l b t
    s.dropList t

/-- `erase_if` (`algorithms/erase.cpp` 93-101). -/
def eraseIfLoop (p : V → Bool) : Nat → SHeap V → Nat → Nat → Nat → Option (SHeap V × Nat)
  | 0, _, _, _, _ => none
  | n + 1, s, l, it, result =>
    if it = l then some (s, result)
    else match s.h.cell it with
      | some ⟨_, nx, some v⟩ =>
        if p v then do
          let s ← s.eraseOne l it
          eraseIfLoop p n s l nx (result + 1)
        else eraseIfLoop p n s l nx result
      | _ => none

/-- `erase_if` (`algorithms/erase.cpp` 91-101), from the first element on. -/
def eraseIf (s : SHeap V) (l : Nat) (p : V → Bool) : Option (SHeap V × Nat) := do
  let b ← s.h.nextOf l
  eraseIfLoop p (s.h.next + 1) s l b 0

/-- `assign` (`assign.cpp` 81-91). -/
def assign (s : SHeap V) (l : Nat) (vs : List V) (left : V) (fail : Option Nat) : Out (SHeap V) :=
  match s.h.nextOf l with
  | none => .ub
  | some b =>
    match s.h.copyTruncate l b left vs fail with
    | .ub => .ub
    | .exn (h, _) => .exn ⟨h, s.size⟩
    | .ok (h, it, rest, fail) =>
      match (⟨h, s.size⟩ : SHeap V).erase l it l with
      | none => .ub
      | some s => s.append l rest fail

/-- The loop of `resize` that shrinks (`resize.cpp` 31-33); it goes by `size()`. -/
def shrinkLoop : Nat → SHeap V → Nat → Nat → Option (SHeap V)
  | 0, _, _, _ => none
  | n + 1, s, l, newSize =>
    if s.sizeOf l = newSize then some s
    else do
      let s ← s.popBack l
      shrinkLoop n s l newSize

/-- `resize` (`resize.cpp` 24-39). -/
def resize (s : SHeap V) (l newSize : Nat) (v : V) (fail : Option Nat) : Out (SHeap V) :=
  if newSize ≤ s.sizeOf l then ptr (shrinkLoop (s.h.next + 1) s l newSize)
  else s.append l (List.replicate (newSize - s.sizeOf l) v) fail

/-- `==` (`std/list.cpp` 123, defaulted): first the elements, then the counter. -/
def equal [BEq V] (s : SHeap V) (a b : Nat) : Option Bool := do
  let xs ← s.h.forward a
  let ys ← s.h.forward b
  some (xs == ys && s.sizeOf a == s.sizeOf b)

end SHeap

/-- What a user can do. -/
inductive SOp (V : Type) where
  | base (op : LOp V)
  | resize (l newSize : Nat) (v : V) (fail : Option Nat)

/-- One operation of the library. -/
def sstep (s : SHeap V) : SOp V → Out (SHeap V)
  | .base .new => .ok s.makeList
  | .base (.newFrom vs fail) => s.makeFrom vs fail
  | .base (.copyOf src fail) => s.copyOf src fail
  | .base (.moveOf src) => ptr (s.moveOf src)
  | .base (.drop l) => ptr (s.dropList l)
  | .base (.pushBack l v fail) => s.pushBack l v fail
  | .base (.pushFront l v fail) => s.pushFront l v fail
  | .base (.popBack l) => ptr (s.popBack l)
  | .base (.popFront l) => ptr (s.popFront l)
  | .base (.append l vs fail) => s.append l vs fail
  | .base (.insert l pos vs fail) => s.insert l pos vs fail
  | .base (.erase l first last) => ptr (s.erase l first last)
  | .base (.eraseIf l p) => ptr ((s.eraseIf l p).map (·.1))
  | .base (.clear l) => ptr (s.clear l)
  | .base (.splice l pos o first last) => ptr (s.splice l pos o first last)
  | .base (.spliceAll l pos o) => ptr (s.spliceAll l pos o)
  | .base (.spliceOne l pos o it) => ptr (s.spliceOne l pos o it)
  | .base (.swap a b) => ptr (s.swap a b)
  | .base (.moveAssign a b) => ptr (s.moveAssign a b)
  | .base (.assign l vs left fail) => s.assign l vs left fail
  | .base (.copyAssign l src left fail) => s.copyAssign l src left fail
  | .resize l newSize v fail => s.resize l newSize v fail

/-! ## Specification

The lists are the ones of C31. In addition every list is or is not *stale*; the claim about
`size()` is made for the lists that are not. A list becomes stale by being moved from, or by
a copy assignment that throws after the number of elements has changed. -/

/-- The lists, and which of them are stale. -/
structure SAbs (V : Type) where
  abs : Abs V
  stale : Nat → Bool

namespace SAbs

/-- What happens to the elements. Other than in C31 nothing is lost when construction from a
range throws. -/
def elems (A : Abs V) : SOp V → Abs V × Bool
  | .base (.newFrom vs fail) =>
    if Abs.made vs.length fail < vs.length then (A.use (1 + Abs.made vs.length fail), true)
    else A.spec (.newFrom vs fail)
  | .base (.insert l pos vs fail) =>
    if Abs.made vs.length fail < vs.length then (A.use (1 + Abs.made vs.length fail), true)
    else A.spec (.insert l pos vs fail)
  | .base op => A.spec op
  | .resize l n v fail =>
    if n ≤ (A.at' l).length then (A.set l ((A.at' l).take n), false)
    else A.spec (.append l (List.replicate (n - (A.at' l).length) v) fail)

/-- Which lists have a wrong counter afterwards. -/
def marks (S : SAbs V) : SOp V → Nat → Bool
  | .base .new | .base (.newFrom _ _) => upd S.stale S.abs.next false
  | .base (.copyOf src _) => upd S.stale S.abs.next (S.stale src)
  | .base (.moveOf src) => upd (upd S.stale S.abs.next (S.stale src)) src (S.stale src || !(S.abs.at' src).isEmpty)
  | .base (.spliceAll l _ o) => upd (upd S.stale l (S.stale l || S.stale o)) o false
  | .base (.swap a b) => upd (upd S.stale a (S.stale b)) b (S.stale a)
  | .base (.moveAssign a b) =>
    if a = b then S.stale
    else upd (upd S.stale a (S.stale b)) b (S.stale b || (S.abs.at' a).length != (S.abs.at' b).length)
  | .base (.copyAssign l src left fail) =>
    let r := S.abs.spec (.copyAssign l src left fail)
    if l = src then S.stale
    else if r.2 then upd S.stale l (S.stale l || (r.1.at' l).length != (S.abs.at' l).length)
    else upd S.stale l (S.stale src)
  | _ => S.stale

/-- What an operation does, and whether it throws. -/
def spec (S : SAbs V) (op : SOp V) : SAbs V × Bool := (⟨(elems S.abs op).1, S.marks op⟩, (elems S.abs op).2)

/-- What the caller has to provide: what C31 asks, except that construction from a range may
throw at any time. `resize` goes by `size()`, which has to be right. -/
def pre (S : SAbs V) : SOp V → Prop
  | .base (.newFrom _ _) => True
  | .base (.insert l pos _ _) => S.abs.Has l ∧ ValidPos l (S.abs.at' l) pos
  | .base op => S.abs.pre op
  | .resize l _ _ _ => S.abs.Has l ∧ S.stale l = false ∧ (S.abs.at' l).length < 2 ^ 64

end SAbs

/-- The memory holds the lists of `A`, and the counters of the lists that are not stale are
right. -/
structure SRel (s : SHeap V) (A : Abs V) (st : Nat → Bool) : Prop where
  rel : Rel s.h A
  size : ∀ {l xs}, A.lists l = some xs → st l = false → s.size l = (xs.length : Int)

end Verif.Lists
