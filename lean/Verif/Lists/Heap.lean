import Verif.Base.Hist
import Mathlib.Data.List.Nodup
import Mathlib.Data.List.Chain

/-!
# Linked nodes and the pointer code of the doubly linked list

Models `source/containers/linked_list_helper.cpp` and the pointer manipulating functions of
`source/containers/bidirectional_linked_list.cpp`.

Addresses are natural numbers, handed out in increasing order and never reused
(simplification: a real allocator may reuse the address of a freed node; every access to a
freed address is undefined behaviour here). A list object is its sentinel, at the address of
the sentinel. In pointer code `none` is undefined behaviour: an access to an address at which
nothing lives, or a violated `BOUNDED_ASSERT`.
-/

namespace Verif.Lists

variable {V : Type}

/-- `bidirectional_links` (`bidirectional_linked_list.cpp` 30-43), and the `value` of
`linked_list_node` (`linked_list_helper.cpp` 33-40); `val = none` for a sentinel, which is
not a node. -/
structure Link (V : Type) where
  prev : Nat
  next : Nat
  val : Option V

/-- The memory: what lives at every address, and the next address to be handed out. -/
structure LHeap (V : Type) where
  cell : Nat → Option (Link V)
  next : Nat

namespace LHeap

/-- `p->next` -/
def nextOf (h : LHeap V) (a : Nat) : Option Nat := (h.cell a).map (·.next)
/-- `p->previous` -/
def prevOf (h : LHeap V) (a : Nat) : Option Nat := (h.cell a).map (·.prev)
/-- What lives at an address: nothing, a sentinel (`some none`) or a node. -/
def valOf (h : LHeap V) (a : Nat) : Option (Option V) := (h.cell a).map (·.val)

/-- `p->next = b` -/
def setNext (h : LHeap V) (a b : Nat) : Option (LHeap V) :=
  (h.cell a).map fun c => { h with cell := upd h.cell a (some { c with next := b }) }
/-- `p->previous = b` -/
def setPrev (h : LHeap V) (a b : Nat) : Option (LHeap V) :=
  (h.cell a).map fun c => { h with cell := upd h.cell a (some { c with prev := b }) }

/-- `unlink_range` (`bidirectional_linked_list.cpp` 45-49). -/
def unlinkRange (h : LHeap V) (first last : Nat) : Option (LHeap V) := do
  let before ← h.prevOf first
  let h ← h.setNext before last
  h.setPrev last before

/-- `link_range` (`bidirectional_linked_list.cpp` 51-58). -/
def linkRange (h : LHeap V) (origFirst addFirst addBeforeLast origLast : Nat) : Option (LHeap V) := do
  if h.nextOf origFirst ≠ some origLast then none
  if h.prevOf origLast ≠ some origFirst then none
  let h ← h.setNext origFirst addFirst
  let h ← h.setPrev addFirst origFirst
  let h ← h.setNext addBeforeLast origLast
  h.setPrev origLast addBeforeLast

/-- `make_node` (`linked_list_helper.cpp` 42-53) when neither the allocation nor the
construction throws: the constructor of the links points them at the node itself. -/
def makeNode (h : LHeap V) (v : V) : LHeap V :=
  { cell := upd h.cell h.next (some ⟨h.next, h.next, some v⟩), next := h.next + 1 }

/-- `destroy_node` (`linked_list_helper.cpp` 55-59); the sentinel is not a node. -/
def destroyNode (h : LHeap V) (a : Nat) : Option (LHeap V) :=
  match h.cell a with
  | some ⟨_, _, some _⟩ => some { h with cell := upd h.cell a none }
  | _ => none

/-- C31: destroying a node that is already destroyed, or something that is not a node, is undefined in the model, so a history that is defined destroys no node twice. -/
theorem C31_destroy_twice {h h' : LHeap V} {a : Nat} (hd : destroyNode h a = some h') : destroyNode h' a = none := by
  simp only [destroyNode] at hd
  split at hd
  · cases hd; simp [destroyNode, upd]
  · cases hd

/-- A node that can be destroyed. -/
example : destroyNode (makeNode ⟨fun _ => none, 0⟩ 7) 0 = some ⟨upd (makeNode ⟨fun _ => none, 0⟩ 7).cell 0 none, 1⟩ := rfl

/-- The default constructor of a list (`bidirectional_linked_list.cpp` 65, 31-35). -/
def makeList (h : LHeap V) : LHeap V :=
  { cell := upd h.cell h.next (some ⟨h.next, h.next, none⟩), next := h.next + 1 }

/-- The end of the life of the sentinel, after the body of the destructor. -/
def freeList (h : LHeap V) (l : Nat) : Option (LHeap V) :=
  match h.cell l with
  | some ⟨_, _, none⟩ => some { h with cell := upd h.cell l none }
  | _ => none

/-- `lazy_push_back` (`bidirectional_linked_list.cpp` 137-141) when nothing throws. -/
def pushNode (h : LHeap V) (l : Nat) (v : V) : Option (LHeap V) := do
  let ptr := h.next
  let h := h.makeNode v
  let before ← h.prevOf l
  h.linkRange before ptr ptr l

/-- `pop_back` (`bidirectional_linked_list.cpp` 142-147). -/
def popBack (h : LHeap V) (l : Nat) : Option (LHeap V) := do
  let it ← h.prevOf l
  let h ← h.unlinkRange it l
  h.destroyNode it

/-- `splice` (`bidirectional_linked_list.cpp` 149-160). -/
def splice (h : LHeap V) (position first last : Nat) : Option (LHeap V) :=
  if first = last then some h
  else do
    let beforeLast ← h.prevOf last
    let beforePosition ← h.prevOf position
    let h ← h.unlinkRange first last
    h.linkRange beforePosition first beforeLast position

/-- `link_in` (`bidirectional_linked_list.cpp` 105-115). -/
def linkIn (h : LHeap V) (node other : Nat) : Option (LHeap V) := do
  let p ← h.prevOf node
  let n ← h.nextOf node
  if p = other then
    if n ≠ other then none
    else
      let h ← h.setPrev node node
      h.setNext node node
  else
    if n = other then none
    else
      let h ← h.setNext p node
      h.setPrev n node

/-- `swap` (`bidirectional_linked_list.cpp` 102-118). -/
def swap (h : LHeap V) (a b : Nat) : Option (LHeap V) := do
  let pa ← h.prevOf a
  let pb ← h.prevOf b
  let h ← h.setPrev a pb
  let h ← h.setPrev b pa
  let na ← h.nextOf a
  let nb ← h.nextOf b
  let h ← h.setNext a nb
  let h ← h.setNext b na
  let h ← h.linkIn a b
  h.linkIn b a

/-- `clear` (`clear.cpp` 27-44) for a container with `pop_back`; a loop that does not end
within the given number of steps counts as undefined behaviour. -/
def clearLoop : Nat → LHeap V → Nat → Option (LHeap V)
  | 0, _, _ => none
  | n + 1, h, l => do
    let first ← h.nextOf l
    if first = l then some h
    else
      let h ← h.popBack l
      clearLoop n h l

/-- `clear`; every step frees an address below `next`. -/
def clear (h : LHeap V) (l : Nat) : Option (LHeap V) := clearLoop (h.next + 1) h l

/-- Forward traversal from an iterator to another: the values met (`linked_list_helper.cpp`
84-98). -/
def walkNext : Nat → LHeap V → Nat → Nat → Option (List V)
  | 0, _, _, _ => none
  | n + 1, h, a, last =>
    if a = last then some []
    else match h.cell a with
      | some ⟨_, nx, some v⟩ => (walkNext n h nx last).map (v :: ·)
      | _ => none

/-- `begin() .. end()` -/
def forward (h : LHeap V) (l : Nat) : Option (List V) := do
  let first ← h.nextOf l
  walkNext (h.next + 1) h first l

/-- Backward traversal: decrement the iterator, then read, until `last` is reached. -/
def walkPrev : Nat → LHeap V → Nat → Nat → Option (List V)
  | 0, _, _, _ => none
  | n + 1, h, a, last =>
    if a = last then some []
    else match h.prevOf a with
      | none => none
      | some p => match h.cell p with
        | some ⟨_, _, some v⟩ => (walkPrev n h p last).map (v :: ·)
        | _ => none

/-- `end()` back to `begin()`. -/
def backward (h : LHeap V) (l : Nat) : Option (List V) := do
  let first ← h.nextOf l
  walkPrev (h.next + 1) h l first

end LHeap

/-! ## Properties of single writes -/

/-- `h'` has the same things at the same addresses as `h`, up to the links. -/
structure SameVals (h h' : LHeap V) : Prop where
  val : ∀ x, h'.valOf x = h.valOf x
  next : h'.next = h.next

theorem SameVals.trans {a b c : LHeap V} (h1 : SameVals a b) (h2 : SameVals b c) : SameVals a c :=
  ⟨fun x => (h2.val x).trans (h1.val x), h2.next.trans h1.next⟩

theorem nextOf_some {h : LHeap V} {a : Nat} (ha : h.valOf a ≠ none) : ∃ n, h.nextOf a = some n := by
  unfold LHeap.valOf at ha; unfold LHeap.nextOf
  cases hc : h.cell a <;> simp_all

theorem prevOf_some {h : LHeap V} {a : Nat} (ha : h.valOf a ≠ none) : ∃ n, h.prevOf a = some n := by
  unfold LHeap.valOf at ha; unfold LHeap.prevOf
  cases hc : h.cell a <;> simp_all

theorem setNext_spec {h : LHeap V} {a b : Nat} (ha : h.valOf a ≠ none) :
    ∃ h', h.setNext a b = some h' ∧ SameVals h h' ∧
      (∀ x, h'.nextOf x = if x = a then some b else h.nextOf x) ∧ ∀ x, h'.prevOf x = h.prevOf x := by
  unfold LHeap.valOf at ha
  cases hc : h.cell a with
  | none => simp [hc] at ha
  | some c =>
    refine ⟨{ h with cell := upd h.cell a (some { c with next := b }) }, by simp [LHeap.setNext, hc], ⟨fun x => ?_, rfl⟩, fun x => ?_, fun x => ?_⟩ <;>
      by_cases hx : x = a <;> simp [LHeap.valOf, LHeap.nextOf, LHeap.prevOf, upd, hx, hc]

theorem setPrev_spec {h : LHeap V} {a b : Nat} (ha : h.valOf a ≠ none) :
    ∃ h', h.setPrev a b = some h' ∧ SameVals h h' ∧
      (∀ x, h'.nextOf x = h.nextOf x) ∧ ∀ x, h'.prevOf x = if x = a then some b else h.prevOf x := by
  unfold LHeap.valOf at ha
  cases hc : h.cell a with
  | none => simp [hc] at ha
  | some c =>
    refine ⟨{ h with cell := upd h.cell a (some { c with prev := b }) }, by simp [LHeap.setPrev, hc], ⟨fun x => ?_, rfl⟩, fun x => ?_, fun x => ?_⟩ <;>
      by_cases hx : x = a <;> simp [LHeap.valOf, LHeap.nextOf, LHeap.prevOf, upd, hx, hc]

/-! ## Chains of nodes -/

/-- `x` is followed by `y`, in both directions. -/
def Linked (h : LHeap V) (x y : Nat) : Prop := h.nextOf x = some y ∧ h.prevOf y = some x

/-- A chain of linked nodes, in both directions. -/
def Inner (h : LHeap V) (xs : List Nat) : Prop := List.IsChain (Linked h) xs

theorem inner_frame {h h' : LHeap V} : ∀ {xs : List Nat}, Inner h xs →
    (∀ x ∈ xs.dropLast, h'.nextOf x = h.nextOf x) → (∀ x ∈ xs.tail, h'.prevOf x = h.prevOf x) → Inner h' xs := by
  intro xs
  induction xs with
  | nil => intro _ _ _; exact List.IsChain.nil
  | cons a xs ih =>
    intro hi hn hp
    cases xs with
    | nil => exact List.IsChain.singleton a
    | cons b ys =>
      rw [Inner, List.isChain_cons_cons] at hi ⊢
      refine ⟨⟨?_, ?_⟩, ih hi.2 ?_ ?_⟩
      · rw [hn a (by simp)]; exact hi.1.1
      · rw [hp b (by simp)]; exact hi.1.2
      · intro x hx; exact hn x (by simp at hx ⊢; exact Or.inr hx)
      · intro x hx; exact hp x (by simp at hx ⊢; exact Or.inr hx)

theorem inner_append {h : LHeap V} {xs ys : List Nat} {x y : Nat} (hx : xs.getLast? = some x) (hy : ys.head? = some y) :
    Inner h (xs ++ ys) ↔ Inner h xs ∧ Inner h ys ∧ Linked h x y := by
  rw [Inner, List.isChain_append]
  simp [hx, hy, Inner]

end Verif.Lists
