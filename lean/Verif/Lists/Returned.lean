import Verif.Lists.ForwardProps
import Verif.Lists.BidirProps

/-!
# What the positions and references returned by the linked lists refer to (property C62)

An iterator of a linked list is the address of a node; the iterator `end()` is the address of the list.
-/

namespace Verif.Lists

open Verif

variable {V : Type}

namespace LHeap

/-- source/containers/insert.cpp 110-113: `insert` of a range into a list, with the returned iterator (`mutable_iterator` only removes a
`const`, bidirectional_linked_list.cpp 133-135). Inserting one value and `emplace` are the same with one element (insert.cpp 141-177), and so is
`insert` of the list in the style of the standard library (std/list.cpp 285-324). -/
def insertRet (h : LHeap V) (position : Nat) (vs : List V) (fail : Option Nat) : Out (LHeap V) × Nat := (h.insert position vs fail, position)

/-- source/containers/algorithms/erase.cpp 40-43: `erase` with the returned iterator. -/
def eraseRet (h : LHeap V) (first last : Nat) : Option (LHeap V) × Nat := (h.erase first last, last)

/-- source/containers/bidirectional_linked_list.cpp 137-141: `lazy_push_back` with the returned reference, which is to the element of the new node.
The address of the new node is `next`. -/
def pushBackRet (h : LHeap V) (l : Nat) (v : V) (fail : Bool) : Out (LHeap V) × Nat := (h.pushBack l v fail, h.next)

/-- source/containers/lazy_push_front.cpp 37-42: `lazy_push_front` with the returned reference, `front(container)`. -/
def pushFrontRet (h : LHeap V) (l : Nat) (v : V) (fail : Bool) : Out (LHeap V × Nat) :=
  match h.pushFront l v fail with
  | .ok h' =>
    match h'.nextOf l with
    | some b => .ok (h', b)
    | none => .ub
  | .exn h' => .exn (h', 0)
  | .ub => .ub

/-- Reading through an iterator. -/
def deref (h : LHeap V) (p : Nat) : Option V := (h.valOf p).join

end LHeap

namespace FHeap

/-- source/containers/forward_linked_list.cpp 96-103: `lazy_insert_after` with the returned iterator, the new node. -/
def insertAfterRet (h : FHeap V) (before : Nat) (v : V) (fail : Bool) : Out (FHeap V) × Nat := (h.insertAfter before v fail, h.next)

end FHeap

/-! ## Specification -/

/-- In the list `xs` whose `end()` is `l`, the iterator `p` refers to the first of the elements `suffix` at the end of the list. -/
def RefersTo (l : Nat) (xs : List (Nat × V)) (p : Nat) (suffix : List V) : Prop :=
  ∃ P Q, xs = P ++ Q ∧ headId Q l = p ∧ Q.map (·.2) = suffix

/-- What `RefersTo` means for the memory: reading through the iterator gives the first of these elements. -/
theorem RefersTo.deref {h : LHeap V} {A : Abs V} (r : Rel h A) {l p : Nat} {xs : List (Nat × V)} {suffix : List V} (hl : A.lists l = some xs)
    (hr : RefersTo l xs p suffix) : h.deref p = suffix.head? := by
  obtain ⟨P, Q, rfl, hh, rfl⟩ := hr
  cases Q with
  | nil =>
    simp only [headId, ids, List.map_nil, List.head?_nil, Option.getD_none] at hh
    subst hh
    simp [LHeap.deref, r.sent hl]
  | cons x Q =>
    obtain ⟨i, v⟩ := x
    simp only [headId, ids, List.map_cons, List.head?_cons, Option.getD_some] at hh
    subst hh
    simp [LHeap.deref, r.vals hl (show (i, v) ∈ P ++ (i, v) :: Q by simp)]

/-- At most one suffix: the nodes of a list are distinct. -/
theorem RefersTo.unique {h : LHeap V} {A : Abs V} (r : Rel h A) {l p : Nat} {xs : List (Nat × V)} {s s' : List V} (hl : A.lists l = some xs)
    (h1 : RefersTo l xs p s) (h2 : RefersTo l xs p s') : s = s' := by
  have key : ∀ {P Q : List (Nat × V)}, xs = P ++ Q → headId Q l = p → Q = fromPos p xs := by
    intro P Q e hh
    have hn := r.nodup hl
    have hnot := r.notMem hl
    subst e
    cases Q with
    | nil =>
      simp only [headId, ids, List.map_nil, List.head?_nil, Option.getD_none] at hh
      subst hh
      exact (from_of_not_mem (by simpa using hnot)).symm
    | cons x Q =>
      obtain ⟨i, v⟩ := x
      simp only [headId, ids, List.map_cons, List.head?_cons, Option.getD_some] at hh
      subst hh
      refine (from_cut ?_).symm
      intro hi
      simp only [ids, List.map_append, List.map_cons] at hn
      exact (List.nodup_append.1 hn).2.2 _ hi _ (by simp) rfl
  obtain ⟨P, Q, e, hh, rfl⟩ := h1
  obtain ⟨P', Q', e', hh', rfl⟩ := h2
  rw [key e hh, key e' hh']

/-! ## C62 -/

/-- What the iterator returned by `insert` refers to: the element that was at the position, after all the new elements. -/
theorem insertRet_refers {h : LHeap V} {A : Abs V} {l pos : Nat} {vs : List V} {xs : List (Nat × V)} (r : Rel h A) (hl : A.lists l = some xs)
    (hv : ValidPos l xs pos) :
    ∃ h' B, h.insertRet pos vs none = (.ok h', pos) ∧ Rel h' B ∧
      ∃ ys, B.lists l = some ys ∧ ys.map (·.2) = (before pos xs).map (·.2) ++ vs ++ (fromPos pos xs).map (·.2) ∧
        RefersTo l ys pos ((fromPos pos xs).map (·.2)) ∧
        ∃ p, RefersTo l ys p (vs ++ (fromPos pos xs).map (·.2)) := by
  obtain ⟨h', e, r'⟩ := insert_op (l := l) (pos := pos) (vs := vs) (fail := none) r
    ⟨⟨xs, hl⟩, by rw [Abs.at_of hl]; exact hv, .inr rfl⟩
  have hnot := r.notMem hl
  simp only [Abs.spec, Abs.made, Nat.lt_irrefl, if_false, Abs.at_of hl] at e r'
  refine ⟨h', _, by rw [LHeap.insertRet, e]; rfl, r', before pos xs ++ number (A.next + 1) vs ++ fromPos pos xs, by simp [Abs.set, Abs.use], ?_, ?_, ?_⟩
  · simp [number_vals]
  · exact ⟨_, _, rfl, head_from hv hnot, rfl⟩
  · exact ⟨_, before pos xs, number (A.next + 1) vs ++ fromPos pos xs, by rw [List.append_assoc], rfl, by rw [List.map_append, number_vals]⟩

/-- C62 for `insert` into a list, if nothing is inserted.

Missing: any insertion of at least one element (`C62_list_insert_violated`). -/
theorem C62_list_insert_partial {h : LHeap V} {A : Abs V} {l pos : Nat} {xs : List (Nat × V)} (r : Rel h A) (hl : A.lists l = some xs)
    (hv : ValidPos l xs pos) :
    ∃ h' B ys, h.insertRet pos [] none = (.ok h', pos) ∧ Rel h' B ∧ B.lists l = some ys ∧ ys.map (·.2) = xs.map (·.2) ∧
      RefersTo l ys pos ([] ++ (fromPos pos xs).map (·.2)) := by
  obtain ⟨h', B, e, r', ys, hy, e1, e2, _⟩ := insertRet_refers (vs := []) r hl hv
  refine ⟨h', B, ys, e, r', hy, ?_, e2⟩
  rw [e1, List.append_nil, ← List.map_append, before_from]

/-- C62 is violated by every insertion of at least one element into a list: the returned iterator does not refer to the first new element but to
what was at the position before. -/
theorem C62_list_insert_violated {h : LHeap V} {A : Abs V} {l pos : Nat} {vs : List V} {xs : List (Nat × V)} (r : Rel h A)
    (hl : A.lists l = some xs) (hv : ValidPos l xs pos) (hne : vs ≠ []) :
    ∃ h' B ys, h.insertRet pos vs none = (.ok h', pos) ∧ Rel h' B ∧ B.lists l = some ys ∧
      ys.map (·.2) = (before pos xs).map (·.2) ++ vs ++ (fromPos pos xs).map (·.2) ∧
      ¬ RefersTo l ys pos (vs ++ (fromPos pos xs).map (·.2)) ∧
      h'.deref pos = (fromPos pos xs).head?.map (·.2) := by
  obtain ⟨h', B, e, r', ys, hy, e1, e2, _⟩ := insertRet_refers (vs := vs) r hl hv
  refine ⟨h', B, ys, e, r', hy, e1, ?_, by rw [e2.deref r' hy, List.head?_map]⟩
  intro h3
  have := congrArg List.length (h3.unique r' hy e2)
  simp only [List.length_append] at this
  exact hne (List.eq_nil_of_length_eq_zero (by omega))

/-- C62, `erase` of a list: the returned iterator refers to the element after the erased ones, or is `end()`. -/
theorem C62_list_erase {h : LHeap V} {A : Abs V} {l first last : Nat} {P M Q : List (Nat × V)} (r : Rel h A)
    (hl : A.lists l = some (P ++ M ++ Q)) (hfirst : first = headId (M ++ Q) l) (hlast : last = headId Q l) :
    ∃ h' B, h.eraseRet first last = (some h', last) ∧ Rel h' B ∧ B.lists l = some (P ++ Q) ∧ RefersTo l (P ++ Q) last (Q.map (·.2)) := by
  have hnot := r.notMem hl
  have hn := r.nodup hl
  have hd : ∀ {S T : List (Nat × V)}, (ids (S ++ T)).Nodup → l ∉ ids (S ++ T) → headId T l ∉ ids S := by
    intro S T h1 h2 h3
    cases T with
    | nil => simp only [headId, ids, List.map_nil, List.head?_nil, Option.getD_none] at h3; exact h2 (by simpa [ids] using h3)
    | cons x T =>
      simp only [headId, ids, List.map_cons, List.head?_cons, Option.getD_some] at h3
      simp only [ids, List.map_append, List.map_cons] at h1
      exact (List.nodup_append.1 h1).2.2 _ h3 _ (by simp) rfl
  have cut : ∀ {S T : List (Nat × V)}, (ids (S ++ T)).Nodup → l ∉ ids (S ++ T) →
      before (headId T l) (S ++ T) = S ∧ fromPos (headId T l) (S ++ T) = T := by
    intro S T h1 h2
    have h3 := hd h1 h2
    cases T with
    | nil =>
      simp only [headId, ids, List.map_nil, List.head?_nil, Option.getD_none, List.append_nil] at h3 ⊢
      exact ⟨before_of_not_mem h3, from_of_not_mem h3⟩
    | cons x T =>
      obtain ⟨i, v⟩ := x
      simp only [headId, ids, List.map_cons, List.head?_cons, Option.getD_some] at h3 ⊢
      exact ⟨before_cut h3, from_cut h3⟩
  rw [List.append_assoc] at hl hn hnot
  obtain ⟨c1, c2⟩ := cut hn hnot
  have hn2 : (ids (M ++ Q)).Nodup := by simp only [ids, List.map_append] at hn ⊢; exact (List.nodup_append.1 hn).2.1
  have hnot2 : l ∉ ids (M ++ Q) := by
    intro h3; apply hnot; simp only [ids, List.map_append, List.mem_append] at h3 ⊢; exact .inr h3
  obtain ⟨c3, c4⟩ := cut hn2 hnot2
  have vp : ∀ (S T : List (Nat × V)), ValidPos l (S ++ T) (headId T l) := by
    intro S T
    cases T with
    | nil => left; simp [headId, ids]
    | cons x T => right; simp [headId, ids]
  obtain ⟨h', e, r'⟩ := erase_op (l := l) (first := first) (last := last) r ⟨⟨_, hl⟩, by
    rw [Abs.at_of hl, hfirst, hlast]
    exact ⟨vp P (M ++ Q), by rw [c2]; exact vp M Q⟩⟩
  simp only [Abs.spec, Abs.at_of hl, outside, hfirst, hlast, c1, c2, c4] at r'
  refine ⟨h', _, by rw [LHeap.eraseRet, e], r', by simp [Abs.set, Abs.use], P, Q, rfl, hlast.symm, rfl⟩

/-- C62, `push_back` and `emplace_back` of a list: the returned reference is to the new element, which is the last one. -/
theorem C62_list_push_back {h : LHeap V} {A : Abs V} {l : Nat} {v : V} {xs : List (Nat × V)} (r : Rel h A) (hl : A.lists l = some xs) :
    ∃ h' B ys, h.pushBackRet l v false = (.ok h', h.next) ∧ Rel h' B ∧ B.lists l = some ys ∧ ys.map (·.2) = xs.map (·.2) ++ [v] ∧
      RefersTo l ys h.next [v] ∧ h'.deref h.next = some v := by
  have e := lstep_refines h A (.pushBack l v false) r ⟨xs, hl⟩
  obtain ⟨h', e1, r'⟩ := e
  simp only [Abs.spec, Abs.at_of hl, lstep, Bool.false_eq_true, if_false] at e1 r'
  have hr : RefersTo l (xs ++ [(A.next, v)]) h.next [v] := ⟨xs, [(A.next, v)], rfl, by simp [headId, ids, r.same], rfl⟩
  have hy : ((A.set l (xs ++ [(A.next, v)])).use 1).lists l = some (xs ++ [(A.next, v)]) := by simp [Abs.set, Abs.use]
  exact ⟨h', _, _, by rw [LHeap.pushBackRet, e1]; rfl, r', hy, by simp, hr, hr.deref r' hy⟩

/-- C62, `push_front` and `emplace_front` of a list: the returned reference is to the new element, which is the first one. -/
theorem C62_list_push_front {h : LHeap V} {A : Abs V} {l : Nat} {v : V} {xs : List (Nat × V)} (r : Rel h A) (hl : A.lists l = some xs) :
    ∃ h' B ys p, h.pushFrontRet l v false = .ok (h', p) ∧ Rel h' B ∧ B.lists l = some ys ∧ ys.map (·.2) = v :: xs.map (·.2) ∧
      RefersTo l ys p (v :: xs.map (·.2)) ∧ h'.deref p = some v := by
  obtain ⟨h', e1, r'⟩ := pushFront_op (l := l) (v := v) (fail := false) r ⟨xs, hl⟩
  simp only [Abs.spec, Abs.at_of hl, Bool.false_eq_true, if_false] at e1 r'
  have hy : ((A.set l ((A.next + 1, v) :: xs)).use 2).lists l = some ((A.next + 1, v) :: xs) := by simp [Abs.set, Abs.use]
  have hr : RefersTo l ((A.next + 1, v) :: xs) (A.next + 1) (v :: xs.map (·.2)) := ⟨[], _, rfl, by simp [headId, ids], rfl⟩
  have hf := ring_first (r'.ring hy)
  refine ⟨h', _, _, A.next + 1, ?_, r', hy, by simp, hr, hr.deref r' hy⟩
  rw [LHeap.pushFrontRet, e1]
  simp only [Out.of_false, hf]
  rfl

/-- C62, `lazy_insert_after` of a `forward_linked_list`: the returned iterator refers to the new element, which is the one after the position. -/
theorem C62_forward_insert_after {h : FHeap V} {A : Abs V} {l : Nat} {v : V} {P Q : List (Nat × V)} (r : FRel h A) (hl : A.lists l = some (P ++ Q)) :
    ∃ h' B, h.insertAfterRet (lastId l P) v false = (.ok h', h.next) ∧ FRel h' B ∧ B.lists l = some (P ++ (h.next, v) :: Q) ∧
      h'.valOf h.next = some (some v) := by
  obtain ⟨h', e, r'⟩ := finsert_spec r hl v
  have hy : (⟨upd A.lists l (some (P ++ (A.next, v) :: Q)), A.next + 1⟩ : Abs V).lists l = some (P ++ (h.next, v) :: Q) := by simp [r.same]
  refine ⟨h', _, ?_, r', hy, r'.node.2 ⟨_, _, hy, by simp⟩⟩
  simp only [FHeap.insertAfterRet, FHeap.insertAfter, Bool.false_eq_true, if_false, e, ptr]

/-! ### Examples -/

/-- The list `{1, 2}`. -/
def ret12 : LHeap Nat := match (LHeap.start Nat).makeFrom [1, 2] none with
  | .ok h => h
  | _ => LHeap.start Nat

/-- In `{1, 2}` (nodes 1 and 2 of list 0) inserting 7 before the 1 returns an iterator to the 1, and inserting at the end returns `end()`. -/
example : ret12.forward 0 = some [1, 2] ∧
    (match ret12.insertRet 1 [7] none with
      | (.ok h, p) => some (h.forward 0, h.deref p)
      | _ => none) = some (some [7, 1, 2], some 1) ∧
    (match ret12.insertRet 0 [7] none with
      | (.ok h, p) => some (h.forward 0, h.deref p)
      | _ => none) = some (some [1, 2, 7], none) ∧
    (match ret12.eraseRet 1 2 with
      | (some h, p) => some (h.forward 0, h.deref p)
      | _ => none) = some (some [2], some 2) := by
  refine ⟨?_, ?_, ?_, ?_⟩ <;> decide +kernel

end Verif.Lists
