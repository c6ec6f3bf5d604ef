import Verif.Containers.CellProps
import Verif.Containers.Iface

/-!
# `dynamic_array` (property C59)

Models source/containers/dynamic_array.cpp 45-133, uninitialized_dynamic_array.cpp 21-88 and
dynamic_array_data.cpp 20-74: an array on the heap whose size is fixed between assignments.
The size type holds the integers from `lo` to `hi`.

Not modelled: sources that are rvalue containers (their elements would be moved), element
access for writing, comparison (which reads through `begin()` and `end()`), the conversion
between `uninitialized_dynamic_array`s of different size types.
-/

namespace Verif.Containers

open Verif

variable {V : Type}

/-- The members: `m_data.m_storage.pointer` and `m_data.m_storage.size`. -/
structure DA where
  ptr : Option Nat
  cap : Nat
  deriving DecidableEq, Repr

namespace DA

/-- source/containers/dynamic_array.cpp 107-109 `size()`, uninitialized_dynamic_array.cpp 67-70
with its assertion. -/
def size (o : DA) : Option Nat := if o.ptr.isSome ∨ o.cap = 0 then some o.cap else none

/-- Iteration from `begin()` to `end()`, that is `size()` elements from `data()` on. -/
def elems (h : Heap V) (o : DA) : Option (List V) :=
  match o.size with
  | none => none
  | some n =>
    match o.ptr with
    | none => if n = 0 then some [] else none
    | some b =>
      match h.blk b with
      | none => none
      | some B => (List.range n).mapM (readCell B.cap B.cell)

/-- `if (data()) destroy_range(*this)` (dynamic_array.cpp 81-83, 93-95). -/
def destroyElems (h : Heap V) (o : DA) : Option (Heap V) :=
  match o.ptr with
  | none => some h
  | some b =>
    match h.blk b with
    | none => none
    | some B => (destroyRange B.cap B.cell 0 o.cap).map fun c => ⟨upd h.blk b (some ⟨B.cap, c⟩), h.next⟩

/-- uninitialized_dynamic_array.cpp 82-86. -/
def dealloc (h : Heap V) (o : DA) : Option (Heap V) :=
  match o.ptr with
  | none => some h
  | some b => h.free b o.cap

/-- The destructor (dynamic_array.cpp 80-84, then uninitialized_dynamic_array.cpp 54-56). -/
def dtor (h : Heap V) (o : DA) : Option (Heap V) := (destroyElems h o).bind fun h => dealloc h o

/-- What is left of an object that was moved from (uninitialized_dynamic_array.cpp 42-46): only
the pointer is reset. -/
def gone (o : DA) : DA := ⟨none, o.cap⟩

/-- Construction from a range (dynamic_array.cpp 52-58): the size is checked, storage is
allocated (`al`: the allocation fails), the elements are copied. If copying throws, the
member `m_data` is destroyed. An exception leaves no object; the second component is then
meaningless. -/
def build (lo hi : Nat) (h : Heap V) (src : List (Item V)) (al : Bool) : Out (Heap V × DA) :=
  if src.length < lo ∨ hi < src.length then .exn (h, ⟨none, 0⟩)
  else if al then .exn (h, ⟨none, 0⟩)
  else
    let a := h.alloc src.length
    match uninitCopy src.length (fun _ => none) 0 src with
    | .ok c => .ok (⟨upd a.1.blk a.2 (some ⟨src.length, c⟩), a.1.next⟩, ⟨some a.2, src.length⟩)
    | .exn c =>
      match dealloc ⟨upd a.1.blk a.2 (some ⟨src.length, c⟩), a.1.next⟩ ⟨some a.2, src.length⟩ with
      | some h => .exn (h, ⟨none, 0⟩)
      | none => .ub
    | .ub => .ub

/-- Move assignment from another object (dynamic_array.cpp 92-98,
uninitialized_dynamic_array.cpp 47-53); afterwards the target is `t` and the source is
`t.gone`. -/
def moveFrom (h : Heap V) (o : DA) : Option (Heap V) := (destroyElems h o).bind fun h => dealloc h o

/-- source/containers/algorithms/copy.cpp 34-41 onto existing elements. An assignment that throws
leaves `left` in the element. -/
def assignLoop (cap : Nat) (left : V) (m : Cells V) (k : Nat) : List (Item V) → Out (Cells V)
  | [] => .ok m
  | it :: its =>
    match readCell cap m k with
    | none => .ub
    | some _ => if it.throws then .exn (upd m k (some left)) else assignLoop cap left (upd m k (some it.val)) (k + 1) its

/-- Construction of a temporary that is then moved to `o`. -/
def replaceBy (lo hi : Nat) (h : Heap V) (o : DA) (src : List (Item V)) (al : Bool) : Out (Heap V × DA) :=
  match build lo hi h src al with
  | .ub => .ub
  | .exn (h, _) => .exn (h, o)
  | .ok (h, t) =>
    match moveFrom h o with
    | none => .ub
    | some h => .ok (h, t)

/-- `assign` (dynamic_array.cpp 117-133). -/
def assign (lo hi : Nat) (h : Heap V) (o : DA) (src : List (Item V)) (al : Bool) (left : V) : Out (Heap V × DA) :=
  match o.ptr with
  | none => replaceBy lo hi h o src al
  | some b =>
    if some src.length = o.size then
      match h.blk b with
      | none => .ub
      | some B =>
        match assignLoop B.cap left B.cell 0 src with
        | .ub => .ub
        | .exn c => .exn (⟨upd h.blk b (some ⟨B.cap, c⟩), h.next⟩, o)
        | .ok c => .ok (⟨upd h.blk b (some ⟨B.cap, c⟩), h.next⟩, o)
    else if lo = 0 then
      -- `clear()`: dynamic_array.cpp 113-115
      match moveFrom h o with
      | none => .ub
      | some h => replaceBy lo hi h ⟨none, 0⟩ src al
    else replaceBy lo hi h o src al

end DA

/-- All objects of a program. -/
structure DWorld (V : Type) where
  heap : Heap V
  obj : Nat → Option DA

/-- Elements to copy, the one with index `thr` throwing. -/
def marked (xs : List V) (thr : Option Nat) : List (Item V) := xs.mapIdx fun k v => ⟨v, thr == some k⟩

/-- What a user can do with objects named by numbers. -/
inductive DOp (V : Type) where
  | new (i : Nat)
  | from (i : Nat) (src : List (Item V)) (al : Bool)
  | copy (i j : Nat) (al : Bool) (thr : Option Nat)
  | move (i j : Nat)
  | assign (i : Nat) (src : List (Item V)) (al : Bool) (left : V)
  | copyAssign (i j : Nat) (al : Bool) (thr : Option Nat) (left : V)
  | moveAssign (i j : Nat)
  | swap (i j : Nat)
  | clear (i : Nat)
  | drop (i : Nat)

namespace DWorld

/-- An object gets a new state. -/
def set (w : DWorld V) (h : Heap V) (i : Nat) (o : Option DA) : DWorld V := ⟨h, upd w.obj i o⟩

/-- A new object, or none if its constructor throws. -/
def made (w : DWorld V) (i : Nat) : Out (Heap V × DA) → Out (DWorld V)
  | .ok (h, o) => .ok (w.set h i (some o))
  | .exn (h, _) => .exn ⟨h, w.obj⟩
  | .ub => .ub

/-- An object changed. -/
def changed (w : DWorld V) (i : Nat) : Out (Heap V × DA) → Out (DWorld V)
  | .ok (h, o) => .ok (w.set h i (some o))
  | .exn (h, o) => .exn (w.set h i (some o))
  | .ub => .ub

end DWorld

/-- One operation. Using an object that does not exist, and creating one that exists, are
errors. -/
def dstep (lo hi : Nat) (w : DWorld V) : DOp V → Out (DWorld V)
  | .new i => match w.obj i with
    | some _ => .ub
    | none => .ok (w.set w.heap i (some ⟨none, 0⟩))
  | .from i src al => match w.obj i with
    | some _ => .ub
    | none => w.made i (DA.build lo hi w.heap src al)
  -- dynamic_array.cpp 70-73
  | .copy i j al thr => match w.obj i, w.obj j with
    | none, some p => match p.elems w.heap with
      | none => .ub
      | some xs => w.made i (DA.build lo hi w.heap (marked xs thr) al)
    | _, _ => .ub
  -- dynamic_array.cpp 75-78
  | .move i j => match w.obj i, w.obj j with
    | none, some p => .ok ⟨w.heap, upd (upd w.obj i (some p)) j (some p.gone)⟩
    | _, _ => .ub
  | .assign i src al left => match w.obj i with
    | none => .ub
    | some o => w.changed i (DA.assign lo hi w.heap o src al left)
  -- dynamic_array.cpp 86-91
  | .copyAssign i j al thr left => match w.obj i, w.obj j with
    | some o, some p =>
      if i = j then .ok w
      else match p.elems w.heap with
        | none => .ub
        | some xs => w.changed i (DA.assign lo hi w.heap o (marked xs thr) al left)
    | _, _ => .ub
  -- dynamic_array.cpp 92-98; with one object on both sides it ends up without storage
  | .moveAssign i j => match w.obj i, w.obj j with
    | some o, some p => match DA.moveFrom w.heap o with
      | none => .ub
      | some h => if i = j then .ok (w.set h i (some o.gone)) else .ok ⟨h, upd (upd w.obj i (some p)) j (some p.gone)⟩
    | _, _ => .ub
  -- `std::swap`: move construction of a temporary and two move assignments to objects without
  -- storage, for which `moveFrom` does nothing
  | .swap i j => match w.obj i, w.obj j with
    | some o, some p =>
      match (DA.moveFrom w.heap o.gone).bind fun h => DA.moveFrom h p.gone with
      | none => .ub
      | some h => .ok ⟨h, upd (upd w.obj i (some p)) j (some o)⟩
    | _, _ => .ub
  -- dynamic_array.cpp 113-115
  | .clear i => match w.obj i with
    | none => .ub
    | some o => match DA.moveFrom w.heap o with
      | none => .ub
      | some h => .ok (w.set h i (some ⟨none, 0⟩))
  | .drop i => match w.obj i with
    | none => .ub
    | some o => match DA.dtor w.heap o with
      | none => .ub
      | some h => .ok (w.set h i none)

/-! ## Specification -/

/-- An array holds elements (and has storage, or is empty and has none), or it had elements
that were moved to another array. -/
inductive DAbs (V : Type) where
  | held (xs : List V) (storage : Bool)
  | moved

namespace DAbs

/-- What a move leaves behind. -/
def gone : DAbs V → DAbs V
  | .held [] _ => .held [] false
  | .held (_ :: _) _ => .moved
  | .moved => .moved

/-- The elements copied from a range, unless something throws. -/
def copied (lo hi : Nat) (src : List (Item V)) (al : Bool) : Option (List V) :=
  if lo ≤ src.length ∧ src.length ≤ hi ∧ al = false ∧ src.all (fun it => !it.throws) then some (src.map (·.val)) else none

/-- A construction from a range. -/
def make (lo hi : Nat) (A : Nat → Option (DAbs V)) (i : Nat) (src : List (Item V)) (al : Bool) : (Nat → Option (DAbs V)) × Bool :=
  match copied lo hi src al with
  | some xs => (upd A i (some (.held xs true)), false)
  | none => (A, true)

/-- Element by element assignment of a range of the same length. -/
def over (left : V) : List V → List (Item V) → List V
  | _ :: xs, it :: its => if it.throws then left :: xs else it.val :: over left xs its
  | xs, _ => xs

/-- An assignment of a range. -/
def reassign (lo hi : Nat) (A : Nat → Option (DAbs V)) (i : Nat) (src : List (Item V)) (al : Bool) (left : V) :
    (Nat → Option (DAbs V)) × Bool :=
  match A i with
  | some (.held xs true) =>
    if src.length = xs.length then (upd A i (some (.held (over left xs src) true)), src.any (·.throws))
    else match copied lo hi src al with
      | some ys => (upd A i (some (.held ys true)), false)
      | none => (if lo = 0 then upd A i (some (.held [] false)) else A, true)
  | _ => make lo hi A i src al

/-- The elements of an array. -/
def elems : Option (DAbs V) → List V
  | some (.held xs _) => xs
  | _ => []

/-- What an operation does, and whether it throws. -/
def spec (lo hi : Nat) (A : Nat → Option (DAbs V)) : DOp V → (Nat → Option (DAbs V)) × Bool
  | .new i => (upd A i (some (.held [] false)), false)
  | .from i src al => make lo hi A i src al
  | .copy i j al thr => make lo hi A i (marked (elems (A j)) thr) al
  | .move i j => (upd (upd A i (A j)) j ((A j).map gone), false)
  | .assign i src al left => reassign lo hi A i src al left
  | .copyAssign i j al thr left => if i = j then (A, false) else reassign lo hi A i (marked (elems (A j)) thr) al left
  | .moveAssign i j => if i = j then (upd A i ((A i).map gone), false) else (upd (upd A i (A j)) j ((A j).map gone), false)
  | .swap i j => (upd (upd A i (A j)) j (A i), false)
  | .clear i => (upd A i (some (.held [] false)), false)
  | .drop i => (upd A i none, false)

/-- Objects exist when they are used. The constructor and function that make an empty array
need a size type with zero. Copying needs a source that was not moved from: its `size()`
fails an assertion (`C59_moved_from_violated`). -/
def pre (lo : Nat) (A : Nat → Option (DAbs V)) : DOp V → Prop
  | .new i => A i = none ∧ lo = 0
  | .from i _ _ => A i = none
  | .copy i j _ _ => A i = none ∧ ∃ xs s, A j = some (.held xs s)
  | .move i j => A i = none ∧ A j ≠ none
  | .assign i _ _ _ => A i ≠ none
  | .copyAssign i j _ _ _ => A i ≠ none ∧ ∃ xs s, A j = some (.held xs s)
  | .moveAssign i j | .swap i j => A i ≠ none ∧ A j ≠ none
  | .clear i => A i ≠ none ∧ lo = 0
  | .drop i => A i ≠ none

end DAbs

/-! ## Invariant -/

/-- One object. -/
def DRep (h : Heap V) (o : DA) : DAbs V → Prop
  | .held xs false => o.ptr = none ∧ o.cap = 0 ∧ xs = []
  | .held xs true => ∃ b, o.ptr = some b ∧ o.cap = xs.length ∧ h.blk b = some ⟨xs.length, cells xs⟩
  | .moved => o.ptr = none ∧ o.cap ≠ 0

/-- The blocks that the objects with the given names own. -/
def ownedBy (T : Nat → Prop) (obj : Nat → Option DA) : Nat → Prop := fun b => ∃ i o, T i ∧ obj i = some o ∧ o.ptr = some b

/-- The memory and the objects are as specified: every object has its elements, and no storage has two owners. -/
structure DRel (w : DWorld V) (A : Nat → Option (DAbs V)) : Prop where
  fresh : Fresh w.heap
  absent : ∀ {i}, A i = none ↔ w.obj i = none
  rep : ∀ {i o a}, w.obj i = some o → A i = some a → DRep w.heap o a
  apart : ∀ {i j o p b}, w.obj i = some o → w.obj j = some p → o.ptr = some b → p.ptr = some b → i = j
  noLeak : ∀ {b}, w.heap.blk b ≠ none → ∃ i o, w.obj i = some o ∧ o.ptr = some b

theorem DRel.has {w : DWorld V} {A : Nat → Option (DAbs V)} (r : DRel w A) {i : Nat} (h : A i ≠ none) :
    ∃ o a, w.obj i = some o ∧ A i = some a ∧ DRep w.heap o a := by
  cases ho : w.obj i with
  | none => exact absurd (r.absent.2 ho) h
  | some o =>
    cases ha : A i with
    | none => exact absurd ha h
    | some a => exact ⟨o, a, rfl, rfl, r.rep ho ha⟩

theorem DRep.live {h : Heap V} {o : DA} {a : DAbs V} (r : DRep h o a) {b : Nat} (hb : o.ptr = some b) : h.blk b ≠ none := by
  match a, r with
  | .held xs false, r => rw [r.1] at hb; cases hb
  | .held xs true, ⟨c, h1, _, h3⟩ => rw [h1] at hb; cases hb; rw [h3]; simp
  | .moved, r => rw [r.1] at hb; cases hb

theorem DRep.keep {h h' : Heap V} {o : DA} {a : DAbs V} (r : DRep h o a) (hk : ∀ b, o.ptr = some b → h'.blk b = h.blk b) : DRep h' o a := by
  match a, r with
  | .held xs false, r => exact r
  | .held xs true, ⟨c, h1, h2, h3⟩ => exact ⟨c, h1, h2, by rw [hk c h1, h3]⟩
  | .moved, r => exact r

/-- A step changes the objects named in `T` and nothing else. -/
theorem DRel.update {w w' : DWorld V} {A A' : Nat → Option (DAbs V)} (r : DRel w A) (T : Nat → Prop)
    (hobj : ∀ i, ¬ T i → w'.obj i = w.obj i) (habs : ∀ i, ¬ T i → A' i = A i)
    (f : Frame (ownedBy T w.obj) w.heap (ownedBy T w'.obj) w'.heap)
    (hnone : ∀ i, T i → (A' i = none ↔ w'.obj i = none))
    (hrep : ∀ i o a, T i → w'.obj i = some o → A' i = some a → DRep w'.heap o a)
    (hap : ∀ i j o p b, T i → T j → w'.obj i = some o → w'.obj j = some p → o.ptr = some b → p.ptr = some b → i = j) :
    DRel w' A' where
  fresh := f.fresh r.fresh
  absent := by
    intro i
    by_cases hi : T i
    · exact hnone i hi
    · rw [hobj i hi, habs i hi]; exact r.absent
  rep := by
    intro i o a ho ha
    by_cases hi : T i
    · exact hrep i o a hi ho ha
    · rw [hobj i hi] at ho
      rw [habs i hi] at ha
      have rr := r.rep ho ha
      refine rr.keep fun b hb => f.other ?_ (rr.live hb)
      rintro ⟨j, p, hj, hp, hpb⟩
      exact hi (r.apart ho hp hb hpb ▸ hj)
  apart := by
    intro i j o p b ho hp hb hb'
    have key : ∀ {i j o p}, ¬ T i → T j → w'.obj i = some o → w'.obj j = some p → o.ptr = some b → p.ptr = some b → False := by
      intro i j o p hi hj ho hp hb hb'
      rw [hobj i hi] at ho
      obtain ⟨o', a, e1, e2, rr⟩ := r.has (i := i) (fun q => by rw [r.absent, ho] at q; cases q)
      rw [ho] at e1; cases e1
      exact rr.live hb (f.new b (by rintro ⟨k, q, hk, hq, hqb⟩; exact hi (r.apart ho hq hb hqb ▸ hk)) ⟨j, p, hj, hp, hb'⟩)
    by_cases hi : T i
    · by_cases hj : T j
      · exact hap i j o p b hi hj ho hp hb hb'
      · exact (key hj hi hp ho hb' hb).elim
    · by_cases hj : T j
      · exact (key hi hj ho hp hb hb').elim
      · rw [hobj i hi] at ho; rw [hobj j hj] at hp
        exact r.apart ho hp hb hb'
  noLeak := by
    intro b hb
    by_cases h2 : ownedBy T w'.obj b
    · obtain ⟨i, o, _, h3, h4⟩ := h2; exact ⟨i, o, h3, h4⟩
    · by_cases h1 : ownedBy T w.obj b
      · exact absurd (f.gone b h1 h2) hb
      · rw [f.keep b h1 h2] at hb
        obtain ⟨i, o, h3, h4⟩ := r.noLeak hb
        have hi : ¬ T i := fun hi => h1 ⟨i, o, hi, h3, h4⟩
        exact ⟨i, o, by rw [hobj i hi]; exact h3, h4⟩

/-- The blocks of one object. -/
def DA.own (o : DA) : Nat → Prop := fun b => o.ptr = some b

theorem ownedBy_one {obj : Nat → Option DA} {i : Nat} {o : DA} (h : obj i = some o) : ownedBy (· = i) obj = o.own := by
  funext b
  apply propext
  constructor
  · rintro ⟨j, p, rfl, hp, hb⟩; rw [h] at hp; cases hp; exact hb
  · intro hb; exact ⟨i, o, rfl, h, hb⟩

theorem ownedBy_none {obj : Nat → Option DA} {i : Nat} (h : obj i = none) : ownedBy (· = i) obj = fun _ => False := by
  funext b
  apply propext
  constructor
  · rintro ⟨j, p, rfl, hp, _⟩; rw [h] at hp; cases hp
  · exact False.elim

/-- One object changes. -/
theorem DRel.change {w : DWorld V} {A : Nat → Option (DAbs V)} (r : DRel w A) {i : Nat} {o : DA} (ho : w.obj i = some o) {h' : Heap V} {o' : DA} {a' : DAbs V}
    (f : Frame o.own w.heap o'.own h') (hr : DRep h' o' a') : DRel (w.set h' i (some o')) (upd A i (some a')) := by
  refine r.update (· = i) (fun k hk => upd_other _ _ hk) (fun k hk => upd_other _ _ hk) ?_ ?_ ?_ ?_
  · rw [ownedBy_one ho, ownedBy_one (o := o') (by simp [DWorld.set])]; exact f
  · rintro k rfl; simp [DWorld.set]
  · rintro k p a rfl hp ha
    simp only [DWorld.set, upd_same, Option.some.injEq] at hp ha
    subst hp ha; exact hr
  · rintro k j p q b rfl rfl _ _ _ _; rfl

/-- An object is made. -/
theorem DRel.create {w : DWorld V} {A : Nat → Option (DAbs V)} (r : DRel w A) {i : Nat} (ho : w.obj i = none) {h' : Heap V} {o' : DA} {a' : DAbs V}
    (f : Frame (fun _ => False) w.heap o'.own h') (hr : DRep h' o' a') : DRel (w.set h' i (some o')) (upd A i (some a')) := by
  refine r.update (· = i) (fun k hk => upd_other _ _ hk) (fun k hk => upd_other _ _ hk) ?_ ?_ ?_ ?_
  · rw [ownedBy_none ho, ownedBy_one (o := o') (by simp [DWorld.set])]; exact f
  · rintro k rfl; simp [DWorld.set]
  · rintro k p a rfl hp ha
    simp only [DWorld.set, upd_same, Option.some.injEq] at hp ha
    subst hp ha; exact hr
  · rintro k j p q b rfl rfl _ _ _ _; rfl

/-- Nothing changes but memory that nobody owns. -/
theorem DRel.same {w : DWorld V} {A : Nat → Option (DAbs V)} (r : DRel w A) {h' : Heap V} (f : Frame (fun _ => False) w.heap (fun _ => False) h') :
    DRel ⟨h', w.obj⟩ A := by
  refine r.update (fun _ => False) (fun _ _ => rfl) (fun _ _ => rfl) ?_ (fun _ h => h.elim) (fun _ _ _ h => h.elim) (fun _ _ _ _ _ h => h.elim)
  have : ∀ obj : Nat → Option DA, ownedBy (fun _ => False) obj = fun _ => False := by
    intro obj; funext b; apply propext; constructor
    · rintro ⟨_, _, h, _⟩; exact h
    · exact False.elim
  rw [this]; exact f

/-! ## The member functions -/

theorem upd_upd_blk {X : Type} (f : Nat → X) (l : Nat) (x y : X) : upd (upd f l x) l y = upd f l y := by
  funext k; simp only [upd]; split <;> rfl

theorem dtor_spec {h : Heap V} {o : DA} {a : DAbs V} (r : DRep h o a) :
    ∃ h', DA.dtor h o = some h' ∧ Frame o.own h (fun _ => False) h' := by
  have nil : o.ptr = none → ∃ h', DA.dtor h o = some h' ∧ Frame o.own h (fun _ => False) h' := by
    intro hp
    refine ⟨h, by simp [DA.dtor, DA.destroyElems, DA.dealloc, hp], ?_⟩
    have : o.own = fun _ => False := by funext b; simp [DA.own, hp]
    rw [this]; exact Frame.refl _ _
  match a, r with
  | .held xs false, r => exact nil r.1
  | .moved, r => exact nil r.1
  | .held xs true, ⟨b, h1, h2, h3⟩ =>
    have e : destroyRange xs.length (cells xs) 0 xs.length = some (fun _ => none) := by
      rw [destroyRange_eq _ _ _ _ (by omega) (fun j _ g => cells_live (by omega))]
      have := cleared_cells xs 0 (by omega)
      simp only [Nat.sub_zero, List.take_zero, cells_nil] at this
      rw [this]
    refine ⟨⟨upd h.blk b none, h.next⟩, ?_, ?_⟩
    · simp only [DA.dtor, DA.destroyElems, h1, h3, h2, e, Option.map_some, Option.bind_some, DA.dealloc, Heap.free, upd_same]
      rw [if_pos ⟨trivial, fun _ _ => rfl⟩]
      simp only [upd_upd_blk]
    · have : o.own = fun c => c = b := by funext c; simp [DA.own, h1, eq_comm]
      rw [this]
      exact {
        keep := fun c k1 _ => upd_other _ _ k1
        gone := fun c k1 _ => by subst k1; exact upd_same _ _ _
        new := fun c _ k2 => k2.elim
        fresh := fun hf c hc => by
          show upd h.blk b none c = none
          simp only [upd]; split
          · rfl
          · exact hf c hc }

theorem moveFrom_spec {h : Heap V} {o : DA} {a : DAbs V} (r : DRep h o a) :
    ∃ h', DA.moveFrom h o = some h' ∧ Frame o.own h (fun _ => False) h' := dtor_spec r

/-- A block that nobody owned is allocated and filled. -/
theorem frame_new {h : Heap V} (hf : Fresh h) (B : Blk V) (o : DA) (ho : o.ptr = some h.next) :
    Frame (fun _ => False) h o.own ⟨upd h.blk h.next (some B), h.next + 1⟩ where
  keep b _ h2 := upd_other _ _ (fun e => h2 (by rw [DA.own, ho, e]))
  gone b h1 := h1.elim
  new b _ h2 := by rw [DA.own, ho] at h2; cases h2; exact hf _ (Nat.le_refl _)
  fresh _ b hb := by
    have hb' : h.next + 1 ≤ b := hb
    rw [show (⟨upd h.blk h.next (some B), h.next + 1⟩ : Heap V).blk b = h.blk b from upd_other _ _ (by omega)]
    exact hf b (by omega)

theorem copied_none {lo hi : Nat} {src : List (Item V)} {al : Bool} (h : src.length < lo ∨ hi < src.length ∨ al = true ∨ noThrow src = false) :
    DAbs.copied lo hi src al = none := by
  unfold DAbs.copied
  rw [if_neg]
  rintro ⟨h1, h2, h3, h4⟩
  rcases h with h | h | h | h
  · omega
  · omega
  · rw [h3] at h; cases h
  · simp only [noThrow, Bool.not_eq_false', List.any_eq_true] at h
    obtain ⟨it, hm, ht⟩ := h
    have := List.all_eq_true.1 h4 it hm
    simp [ht] at this

theorem copied_some {lo hi : Nat} {src : List (Item V)} (h1 : lo ≤ src.length) (h2 : src.length ≤ hi) (h3 : noThrow src = true) :
    DAbs.copied lo hi src false = some (vals src) := by
  unfold DAbs.copied
  rw [if_pos]
  · rfl
  · refine ⟨h1, h2, rfl, List.all_eq_true.2 fun it hm => ?_⟩
    simp only [noThrow, Bool.not_eq_true', List.any_eq_false] at h3
    simpa using h3 it hm

/-- Construction from a range. -/
theorem build_spec {lo hi : Nat} {h : Heap V} (hf : Fresh h) (src : List (Item V)) (al : Bool) :
    (∃ xs h' o, DAbs.copied lo hi src al = some xs ∧ DA.build lo hi h src al = .ok (h', o) ∧ DRep h' o (.held xs true) ∧
      Frame (fun _ => False) h o.own h') ∨
    (∃ h' o, DAbs.copied lo hi src al = none ∧ DA.build lo hi h src al = .exn (h', o) ∧ Frame (fun _ => False) h (fun _ => False) h') := by
  unfold DA.build
  by_cases h1 : src.length < lo ∨ hi < src.length
  · right
    rw [if_pos h1]
    exact ⟨h, _, copied_none (h1.elim Or.inl fun q => Or.inr (Or.inl q)), rfl, Frame.refl _ _⟩
  · rw [if_neg h1]
    cases al with
    | true => right; exact ⟨h, _, copied_none (Or.inr (Or.inr (Or.inl rfl))), rfl, Frame.refl _ _⟩
    | false =>
      simp only [Bool.false_eq_true, if_false, Heap.alloc]
      cases hn : noThrow src with
      | true =>
        left
        rw [uninitCopy_ok hn (by omega) (fun _ _ _ => rfl)]
        refine ⟨vals src, _, _, copied_some (by omega) (by omega) hn, rfl, ⟨h.next, rfl, by simp, ?_⟩, ?_⟩
        · simp [written_none]
        · rw [upd_upd_blk]; exact frame_new hf _ _ rfl
      | false =>
        right
        rw [uninitCopy_exn hn (by omega) (fun _ _ _ => rfl)]
        simp only [upd_upd_blk, DA.dealloc, Heap.free, upd_same]
        rw [if_pos ⟨trivial, fun _ _ => rfl⟩]
        refine ⟨_, _, copied_none (Or.inr (Or.inr (Or.inr hn))), rfl, ?_⟩
        exact {
          keep := fun c _ _ => by
            by_cases hc : c = h.next
            · rw [hc, hf _ (Nat.le_refl _)]; exact upd_same _ _ _
            · exact upd_other _ _ hc
          gone := fun c k1 _ => k1.elim
          new := fun c _ k2 => k2.elim
          fresh := fun _ c hc => by
            have hc' : h.next + 1 ≤ c := hc
            show upd h.blk h.next none c = none
            rw [upd_other _ _ (by omega)]; exact hf c (by omega) }

/-- A new object replaces an old one. -/
theorem replaceBy_spec {lo hi : Nat} {h : Heap V} (hf : Fresh h) {o : DA} {a : DAbs V} (r : DRep h o a) (src : List (Item V)) (al : Bool) :
    (∃ xs h' o', DAbs.copied lo hi src al = some xs ∧ DA.replaceBy lo hi h o src al = .ok (h', o') ∧ DRep h' o' (.held xs true) ∧
      Frame o.own h o'.own h') ∨
    (∃ h', DAbs.copied lo hi src al = none ∧ DA.replaceBy lo hi h o src al = .exn (h', o) ∧ DRep h' o a ∧ Frame o.own h o.own h') := by
  rcases build_spec (lo := lo) (hi := hi) hf src al with ⟨xs, h1, t, e0, e1, r1, f1⟩ | ⟨h1, t, e0, e1, f1⟩
  · left
    have rk : DRep h1 o a := r.keep fun b hb => f1.other id (r.live hb)
    obtain ⟨h2, e2, f2⟩ := moveFrom_spec rk
    refine ⟨xs, h2, t, e0, by simp only [DA.replaceBy, e1, e2], ?_, ?_⟩
    · refine r1.keep fun b hb => f2.other ?_ (r1.live hb)
      intro hob
      exact r.live hob (f1.new b id hb)
    · have g1 := f1.more o.own
      have g2 := f2.more t.own
      refine (g1.congr (fun b => by simp) (fun b => Iff.rfl)).trans (g2.congr (fun b => Or.comm) (fun b => by simp))
  · right
    refine ⟨h1, e0, by simp only [DA.replaceBy, e1], r.keep fun b hb => f1.other id (r.live hb), ?_⟩
    exact (f1.more o.own).congr (fun b => by simp) (fun b => by simp)

/-- Assignment element by element: `zs` are the elements already assigned. -/
theorem assignLoop_spec (left : V) : ∀ (src : List (Item V)) (zs xs : List V), src.length = xs.length →
    DA.assignLoop (zs.length + xs.length) left (cells (zs ++ xs)) zs.length src =
      Out.of (src.any (·.throws)) (cells (zs ++ DAbs.over left xs src)) := by
  intro src
  induction src with
  | nil =>
    intro zs xs h
    cases xs with
    | nil => rfl
    | cons x xs => simp at h
  | cons it its ih =>
    intro zs xs h
    cases xs with
    | nil => simp at h
    | cons x xs =>
      have hr : readCell (zs.length + (x :: xs).length) (cells (zs ++ x :: xs)) zs.length = some x := by
        simp [readCell, cells]
      have hu : ∀ v, upd (cells (zs ++ x :: xs)) zs.length (some v) = cells (zs ++ v :: xs) := by
        intro v
        rw [upd_cells (by simp)]
        simp
      simp only [DA.assignLoop, hr, hu, DAbs.over, List.any_cons]
      by_cases ht : it.throws = true
      · simp [ht]
      · have ht' : it.throws = false := by simpa using ht
        simp only [ht', Bool.false_eq_true, if_false, Bool.false_or]
        have := ih (zs ++ [it.val]) xs (by simpa using h)
        simp only [List.length_append, List.length_cons, List.length_nil, List.append_assoc, List.singleton_append] at this
        rw [List.length_cons, show zs.length + (xs.length + 1) = zs.length + (0 + 1) + xs.length by omega,
          show zs.length + 1 = zs.length + (0 + 1) by omega]
        exact this

theorem over_length (left : V) : ∀ (xs : List V) (src : List (Item V)), (DAbs.over left xs src).length = xs.length
  | [], _ => by simp [DAbs.over]
  | _ :: _, [] => by simp [DAbs.over]
  | x :: xs, it :: its => by simp only [DAbs.over]; split <;> simp [over_length left xs its]

theorem assign_spec {lo hi : Nat} {w : DWorld V} {A : Nat → Option (DAbs V)} (r : DRel w A) {i : Nat} {o : DA} {a : DAbs V} (ho : w.obj i = some o) (ha : A i = some a)
    (src : List (Item V)) (al : Bool) (left : V) :
    ∃ w', w.changed i (DA.assign lo hi w.heap o src al left) = Out.of (DAbs.reassign lo hi A i src al left).2 w' ∧
      DRel w' (DAbs.reassign lo hi A i src al left).1 := by
  have rr := r.rep ho ha
  have hself : upd A i (some a) = A := by funext k; simp only [upd]; split <;> simp_all
  have bare : ∀ (hb : DAbs.reassign lo hi A i src al left = DAbs.make lo hi A i src al)
      (he : DA.assign lo hi w.heap o src al left = DA.replaceBy lo hi w.heap o src al),
      ∃ w', w.changed i (DA.assign lo hi w.heap o src al left) = Out.of (DAbs.reassign lo hi A i src al left).2 w' ∧
      DRel w' (DAbs.reassign lo hi A i src al left).1 := by
    intro hb he
    rw [hb, he]
    rcases replaceBy_spec (lo := lo) (hi := hi) r.fresh rr src al with ⟨xs, h1, t, e0, e1, r1, f1⟩ | ⟨h1, e0, e1, r1, f1⟩
    · simp only [DAbs.make, e0, e1, DWorld.changed]
      exact ⟨_, rfl, r.change ho f1 r1⟩
    · simp only [DAbs.make, e0, e1, DWorld.changed]
      refine ⟨_, rfl, ?_⟩
      have := r.change ho f1 r1
      rwa [hself] at this
  match a, rr with
  | .held xs false, rr =>
    exact bare (by simp [DAbs.reassign, ha]) (by simp [DA.assign, rr.1])
  | .moved, rr => exact bare (by simp [DAbs.reassign, ha]) (by simp [DA.assign, rr.1])
  | .held xs true, ⟨b, h1, h2, h3⟩ =>
    have hsz : o.size = some xs.length := by simp [DA.size, h1, h2]
    by_cases hl : src.length = xs.length
    · have e1 : DA.assign lo hi w.heap o src al left = Out.of (src.any (·.throws))
          (⟨upd w.heap.blk b (some ⟨xs.length, cells (DAbs.over left xs src)⟩), w.heap.next⟩, o) := by
        have := assignLoop_spec left src [] xs hl
        simp only [List.length_nil, Nat.zero_add, List.nil_append] at this
        simp only [DA.assign, h1, hsz, hl, if_true, h3, this]
        cases src.any (·.throws) <;> rfl
      have e2 : DAbs.reassign lo hi A i src al left = (upd A i (some (.held (DAbs.over left xs src) true)), src.any (·.throws)) := by
        simp [DAbs.reassign, ha, hl]
      rw [e1, e2]
      refine ⟨w.set ⟨upd w.heap.blk b (some ⟨xs.length, cells (DAbs.over left xs src)⟩), w.heap.next⟩ i (some o), ?_, ?_⟩
      · cases src.any (·.throws) <;> rfl
      · refine r.change ho ?_ ⟨b, h1, by rw [over_length]; exact h2, by simp [over_length]⟩
        have : o.own = fun c => c = b := by funext c; simp [DA.own, h1, eq_comm]
        rw [this]
        exact {
          keep := fun c k1 _ => upd_other _ _ k1
          gone := fun c k1 k2 => absurd k1 k2
          new := fun c k1 k2 => absurd k2 k1
          fresh := fun hf c hc => by
            show upd w.heap.blk b _ c = none
            rw [upd_other]
            · exact hf c hc
            · rintro rfl; rw [hf _ hc] at h3; cases h3 }
    · have hne : ¬ some src.length = o.size := by rw [hsz]; simpa using hl
      by_cases hlo : lo = 0
      · have rr : DRep w.heap o (.held xs true) := ⟨b, h1, h2, h3⟩
        obtain ⟨g1, e1, f1⟩ := moveFrom_spec rr
        have r0 : DRep g1 ⟨none, 0⟩ (.held ([] : List V) false) := ⟨rfl, rfl, rfl⟩
        have hown : (⟨none, 0⟩ : DA).own = fun _ => False := by funext c; simp [DA.own]
        have ea : DA.assign lo hi w.heap o src al left = DA.replaceBy lo hi g1 ⟨none, 0⟩ src al := by
          simp only [DA.assign, h1, if_neg hne, if_pos hlo, e1]
        rw [ea]
        rcases replaceBy_spec (lo := lo) (hi := hi) (f1.fresh r.fresh) r0 src al with ⟨ys, g2, t, e2, e3, r3, f3⟩ | ⟨g2, e2, e3, r3, f3⟩
        · rw [hown] at f3
          have es : DAbs.reassign lo hi A i src al left = (upd A i (some (.held ys true)), false) := by
            simp [DAbs.reassign, ha, hl, e2]
          rw [es, e3]
          exact ⟨_, rfl, r.change ho (f1.trans f3) r3⟩
        · rw [hown] at f3
          have es : DAbs.reassign lo hi A i src al left = (upd A i (some (.held [] false)), true) := by
            simp only [DAbs.reassign, ha, if_neg hl, e2, if_pos hlo]
          rw [es, e3]
          refine ⟨_, rfl, r.change ho (o' := ⟨none, 0⟩) ?_ r3⟩
          rw [hown]; exact f1.trans f3
      · have rr : DRep w.heap o (.held xs true) := ⟨b, h1, h2, h3⟩
        have ea : DA.assign lo hi w.heap o src al left = DA.replaceBy lo hi w.heap o src al := by
          simp only [DA.assign, h1, if_neg hne, if_neg hlo]
        rw [ea]
        rcases replaceBy_spec (lo := lo) (hi := hi) r.fresh rr src al with ⟨ys, g2, t, e2, e3, r3, f3⟩ | ⟨g2, e2, e3, r3, f3⟩
        · have es : DAbs.reassign lo hi A i src al left = (upd A i (some (.held ys true)), false) := by
            simp [DAbs.reassign, ha, hl, e2]
          rw [es, e3]
          exact ⟨_, rfl, r.change ho f3 r3⟩
        · have es : DAbs.reassign lo hi A i src al left = (A, true) := by
            simp [DAbs.reassign, ha, hl, e2, hlo]
          rw [es, e3]
          refine ⟨_, rfl, ?_⟩
          have := r.change ho f3 r3
          rwa [hself] at this

theorem mapM_range {f : Nat → Option V} {xs : List V} (h : ∀ k, k < xs.length → f k = xs[k]?) : (List.range xs.length).mapM f = some xs := by
  generalize hn : xs.length = n
  induction n generalizing xs with
  | zero => rw [List.length_eq_zero_iff.1 hn]; rfl
  | succ n ih =>
    obtain ⟨ys, x, rfl⟩ : ∃ ys x, xs = ys ++ [x] := ⟨xs.dropLast, xs.getLast (by rintro rfl; simp at hn), (List.dropLast_concat_getLast _).symm⟩
    have hn' : ys.length = n := by simpa using hn
    subst hn'
    have hp : (List.range ys.length).mapM f = some ys := ih (fun k hk => by
      rw [h k (by simp; omega), List.getElem?_append_left hk]) rfl
    have hx : f ys.length = some x := by rw [h _ (by simp)]; simp
    rw [List.range_succ, List.mapM_append, hp]
    simp [hx]

theorem elems_spec {h : Heap V} {o : DA} {xs : List V} {st : Bool} (r : DRep h o (.held xs st)) : o.elems h = some xs ∧ o.size = some xs.length := by
  cases st with
  | false =>
    obtain ⟨h1, h2, rfl⟩ := r
    simp [DA.elems, DA.size, h1, h2]
  | true =>
    obtain ⟨b, h1, h2, h3⟩ := r
    have hs : o.size = some xs.length := by simp [DA.size, h1, h2]
    refine ⟨?_, hs⟩
    simp only [DA.elems, hs, h1, h3]
    exact mapM_range fun k hk => by simp [readCell, cells, hk]

theorem gone_rep {h : Heap V} {o : DA} {a : DAbs V} (r : DRep h o a) : DRep h o.gone a.gone := by
  match a, r with
  | .held [] false, r => exact ⟨rfl, r.2.1, rfl⟩
  | .held [] true, ⟨b, h1, h2, h3⟩ => exact ⟨rfl, h2, rfl⟩
  | .held (x :: xs) true, ⟨b, h1, h2, h3⟩ => exact ⟨rfl, by simp [DA.gone, h2]⟩
  | .held (x :: xs) false, r => exact absurd r.2.2 (by simp)
  | .moved, r => exact ⟨rfl, r.2⟩

theorem made_spec {lo hi : Nat} {w : DWorld V} {A : Nat → Option (DAbs V)} (r : DRel w A) {i : Nat} (ho : w.obj i = none) (src : List (Item V)) (al : Bool) :
    ∃ w', w.made i (DA.build lo hi w.heap src al) = Out.of (DAbs.make lo hi A i src al).2 w' ∧ DRel w' (DAbs.make lo hi A i src al).1 := by
  rcases build_spec (lo := lo) (hi := hi) r.fresh src al with ⟨xs, h1, t, e0, e1, r1, f1⟩ | ⟨h1, t, e0, e1, f1⟩
  · simp only [DAbs.make, e0, e1]
    exact ⟨_, rfl, r.create ho f1 r1⟩
  · simp only [DAbs.make, e0, e1]
    exact ⟨_, rfl, r.same f1⟩

/-- Two objects get new contents from what they had (or from one of them, which is given up). -/
theorem DRel.two {w : DWorld V} {A : Nat → Option (DAbs V)} (r : DRel w A) {i j : Nat} (hij : i ≠ j) {h' : Heap V} {o' p' : DA} {a' b' : DAbs V}
    (f : Frame (ownedBy (fun k => k = i ∨ k = j) w.obj) w.heap (fun b => o'.own b ∨ p'.own b) h')
    (hr : DRep h' o' a') (hr' : DRep h' p' b') (hap : ∀ b, o'.own b → ¬ p'.own b) :
    DRel ⟨h', upd (upd w.obj i (some o')) j (some p')⟩ (upd (upd A i (some a')) j (some b')) := by
  have hi : (upd (upd w.obj i (some o')) j (some p')) i = some o' := by rw [upd_other _ _ hij, upd_same]
  have hj : (upd (upd w.obj i (some o')) j (some p')) j = some p' := upd_same _ _ _
  have ai : (upd (upd A i (some a')) j (some b')) i = some a' := by rw [upd_other _ _ hij, upd_same]
  have aj : (upd (upd A i (some a')) j (some b')) j = some b' := upd_same _ _ _
  refine r.update (fun k => k = i ∨ k = j) ?_ ?_ ?_ ?_ ?_ ?_
  · intro k hk; rw [not_or] at hk; show upd (upd w.obj i _) j _ k = _; rw [upd_other _ _ hk.2, upd_other _ _ hk.1]
  · intro k hk; rw [not_or] at hk; rw [upd_other _ _ hk.2, upd_other _ _ hk.1]
  · refine f.congr (fun _ => Iff.rfl) fun b => ?_
    constructor
    · rintro (q | q)
      · exact ⟨i, o', Or.inl rfl, hi, q⟩
      · exact ⟨j, p', Or.inr rfl, hj, q⟩
    · rintro ⟨k, q, rfl | rfl, hq, hb⟩
      · have := hi.symm.trans hq; cases this; exact Or.inl hb
      · have := hj.symm.trans hq; cases this; exact Or.inr hb
  · rintro k (rfl | rfl)
    · simp only [ai, hi]; simp
    · simp only [aj, hj]; simp
  · rintro k q a (rfl | rfl) hq ha
    · have e1 := hi.symm.trans hq; have e2 := ai.symm.trans ha; cases e1; cases e2; exact hr
    · have e1 := hj.symm.trans hq; have e2 := aj.symm.trans ha; cases e1; cases e2; exact hr'
  · rintro k l q q' b (rfl | rfl) (rfl | rfl) hq hq' hb hb'
    · rfl
    · have e1 := hi.symm.trans hq; have e2 := hj.symm.trans hq'; cases e1; cases e2; exact absurd hb' (hap b hb)
    · have e1 := hj.symm.trans hq; have e2 := hi.symm.trans hq'; cases e1; cases e2; exact absurd hb (hap b hb')
    · rfl

theorem gone_own (o : DA) : o.gone.own = fun _ => False := by funext b; simp [DA.own, DA.gone]

theorem upd_same_of {X : Type} {f : Nat → X} {i : Nat} {x : X} (h : f i = x) : upd f i x = f := by
  funext k; simp only [upd]; split
  · rename_i e; rw [e, h]
  · rfl

/-- One operation. -/
theorem dstep_refines {lo hi : Nat} (w : DWorld V) (A : Nat → Option (DAbs V)) (op : DOp V) (r : DRel w A) (hp : DAbs.pre lo A op) :
    ∃ w', dstep lo hi w op = Out.of (DAbs.spec lo hi A op).2 w' ∧ DRel w' (DAbs.spec lo hi A op).1 := by
  have ex : ∀ {i}, A i ≠ none → ∃ o a, w.obj i = some o ∧ A i = some a ∧ DRep w.heap o a := fun h => r.has h
  have own2 : ∀ {i j o p}, w.obj i = some o → w.obj j = some p → ownedBy (fun k => k = i ∨ k = j) w.obj = fun b => o.own b ∨ p.own b := by
    intro i j o p ho hp
    funext b; apply propext; constructor
    · rintro ⟨k, q, rfl | rfl, hq, hb⟩
      · rw [ho] at hq; cases hq; exact Or.inl hb
      · rw [hp] at hq; cases hq; exact Or.inr hb
    · rintro (q | q)
      · exact ⟨i, o, Or.inl rfl, ho, q⟩
      · exact ⟨j, p, Or.inr rfl, hp, q⟩
  cases op with
  | new i =>
    have ho := r.absent.1 hp.1
    refine ⟨w.set w.heap i (some ⟨none, 0⟩), by simp [dstep, ho, DAbs.spec], ?_⟩
    refine r.create ho ?_ ⟨rfl, rfl, rfl⟩
    have : (⟨none, 0⟩ : DA).own = fun _ => False := by funext b; simp [DA.own]
    rw [this]; exact Frame.refl _ _
  | «from» i src al =>
    have ho := r.absent.1 hp
    simp only [dstep, ho, DAbs.spec]
    exact made_spec r ho src al
  | copy i j al thr =>
    obtain ⟨h1, xs, st, h2⟩ := hp
    have ho := r.absent.1 h1
    obtain ⟨p, a, e1, e2, r2⟩ := ex (i := j) (by rw [h2]; simp)
    rw [h2] at e2; cases e2
    simp only [dstep, ho, e1, (elems_spec r2).1, DAbs.spec, h2, DAbs.elems]
    exact made_spec r ho _ al
  | move i j =>
    obtain ⟨h1, h2⟩ := hp
    have ho := r.absent.1 h1
    obtain ⟨p, a, e1, e2, r2⟩ := ex h2
    have hij : i ≠ j := by rintro rfl; rw [ho] at e1; cases e1
    refine ⟨⟨w.heap, upd (upd w.obj i (some p)) j (some p.gone)⟩, by simp [dstep, ho, e1, DAbs.spec], ?_⟩
    simp only [DAbs.spec, e2, Option.map_some]
    refine r.two hij ?_ r2 (gone_rep r2) (fun b _ q => by rw [gone_own] at q; exact q)
    refine (Frame.refl p.own w.heap).congr (fun b => ?_) (fun b => by rw [gone_own]; simp)
    constructor
    · intro q; exact ⟨j, p, Or.inr rfl, e1, q⟩
    · rintro ⟨k, q, rfl | rfl, hq, hb⟩
      · rw [ho] at hq; cases hq
      · rw [e1] at hq; cases hq; exact hb
  | assign i src al left =>
    obtain ⟨o, a, e1, e2, _⟩ := ex hp
    simp only [dstep, e1, DAbs.spec]
    exact assign_spec r e1 e2 src al left
  | copyAssign i j al thr left =>
    obtain ⟨h1, xs, st, h2⟩ := hp
    obtain ⟨o, a, e1, e2, _⟩ := ex h1
    obtain ⟨p, b, e3, e4, r4⟩ := ex (i := j) (by rw [h2]; simp)
    rw [h2] at e4; cases e4
    simp only [dstep, e1, e3, DAbs.spec]
    by_cases hij : i = j
    · simp only [if_pos hij]; exact ⟨w, rfl, r⟩
    · simp only [if_neg hij, (elems_spec r4).1, h2, DAbs.elems]
      exact assign_spec r e1 e2 _ al left
  | moveAssign i j =>
    obtain ⟨h1, h2⟩ := hp
    obtain ⟨o, a, e1, e2, r2⟩ := ex h1
    obtain ⟨p, b, e3, e4, r4⟩ := ex h2
    obtain ⟨g, e5, f5⟩ := moveFrom_spec r2
    simp only [dstep, e1, e3, e5, DAbs.spec]
    by_cases hij : i = j
    · simp only [if_pos hij, e2, Option.map_some]
      refine ⟨_, rfl, r.change e1 ?_ ?_⟩
      · rw [gone_own]; exact f5
      · refine (gone_rep r2).keep fun c hc => ?_
        have : o.gone.own c := hc
        rw [gone_own] at this; exact this.elim
    · simp only [if_neg hij, e4, Option.map_some]
      refine ⟨_, rfl, ?_⟩
      have hap : ∀ c, o.own c → ¬ p.own c := fun c q q' => hij (r.apart e1 e3 q q')
      have r4' : DRep g p b := r4.keep fun c hc => f5.other (fun q => hap c q hc) (r4.live hc)
      refine r.two hij ?_ r4' (gone_rep r4') (fun c _ q => by rw [gone_own] at q; exact q)
      rw [own2 e1 e3, gone_own]
      exact (f5.more p.own).congr (fun c => Iff.rfl) (fun c => by simp)
  | swap i j =>
    obtain ⟨h1, h2⟩ := hp
    obtain ⟨o, a, e1, e2, r2⟩ := ex h1
    obtain ⟨p, b, e3, e4, r4⟩ := ex h2
    have hn : ∀ (g : Heap V) (q : DA), DA.moveFrom g q.gone = some g := by
      intro g q; simp [DA.moveFrom, DA.destroyElems, DA.dealloc, DA.gone]
    simp only [dstep, e1, e3, hn, Option.bind_some, DAbs.spec, e2, e4]
    refine ⟨_, rfl, ?_⟩
    by_cases hij : i = j
    · subst hij
      rw [e1] at e3; cases e3
      rw [e2] at e4; cases e4
      rw [upd_same_of e1, upd_same_of e1, upd_same_of e2, upd_same_of e2]
      exact r
    · refine r.two hij ?_ r4 r2 (fun c q q' => hij (r.apart e1 e3 q' q))
      rw [own2 e1 e3]
      exact (Frame.refl _ _).congr (fun c => Iff.rfl) (fun c => Or.comm)
  | clear i =>
    obtain ⟨o, a, e1, e2, r2⟩ := ex hp.1
    obtain ⟨g, e5, f5⟩ := moveFrom_spec r2
    simp only [dstep, e1, e5, DAbs.spec]
    refine ⟨_, rfl, r.change e1 ?_ ⟨rfl, rfl, rfl⟩⟩
    have : (⟨none, 0⟩ : DA).own = fun _ => False := by funext b; simp [DA.own]
    rw [this]; exact f5
  | drop i =>
    obtain ⟨o, a, e1, e2, r2⟩ := ex hp
    obtain ⟨g, e5, f5⟩ := dtor_spec r2
    simp only [dstep, e1, e5, DAbs.spec]
    refine ⟨_, rfl, ?_⟩
    refine r.update (· = i) (fun k hk => upd_other _ _ hk) (fun k hk => upd_other _ _ hk) ?_ ?_ ?_ ?_
    · rw [ownedBy_one e1, ownedBy_none (by simp [DWorld.set])]; exact f5
    · rintro k rfl; simp [DWorld.set]
    · rintro k q b rfl hq _; simp [DWorld.set] at hq
    · rintro k l q q' b rfl rfl _ _ _ _; rfl

/-! ## Histories -/

/-- No objects, nothing allocated. -/
def DWorld.start (V : Type) : DWorld V := ⟨⟨fun _ => none, 0⟩, fun _ => none⟩

theorem drel_start (V : Type) : DRel (DWorld.start V) (fun _ => none) where
  fresh _ _ := rfl
  absent := by intro i; simp [DWorld.start]
  rep h := by cases h
  apart h := by cases h
  noLeak h := absurd rfl h

/-- C59. Any history of operations on any number of arrays, with any pattern of failing
allocations, sizes outside the size type and throwing elements, runs without undefined
behaviour (elements are constructed in raw slots, assigned and destroyed while alive, blocks
are released once, with their size, when no element is alive); afterwards iterating over an
array gives the elements that the specification says and `size()` is their number, for every
array that does not count as moved from; and every allocated block belongs to an array, so
that nothing is allocated when no array exists.

Missing from the full claim: arrays that had elements when they were moved from cannot be
read or copied (`C59_moved_from_violated`). -/
theorem C59_history_partial (lo hi : Nat) (ops : List (DOp V)) (hp : PreHist (DAbs.spec lo hi) (DAbs.pre lo) (fun _ => none) ops) :
    ∃ w, runHist (dstep lo hi) (DWorld.start V) ops = some (w, (specHist (DAbs.spec lo hi) (fun _ => none) ops).2) ∧
      (∀ i xs st, (specHist (DAbs.spec lo hi) (fun _ => none) ops).1 i = some (.held xs st) →
        ∃ o, w.obj i = some o ∧ o.elems w.heap = some xs ∧ o.size = some xs.length) ∧
      (∀ b, w.heap.blk b ≠ none → ∃ i o, w.obj i = some o ∧ o.ptr = some b) ∧
      ((∀ i, (specHist (DAbs.spec lo hi) (fun _ => none) ops).1 i = none) → ∀ b, w.heap.blk b = none) := by
  obtain ⟨w, e, r⟩ := runHist_refines (R := DRel) (fun w A op r hp => dstep_refines (lo := lo) (hi := hi) w A op r hp) ops
    (DWorld.start V) (fun _ => none) (drel_start V) hp
  refine ⟨w, e, ?_, fun b hb => r.noLeak hb, ?_⟩
  · intro i xs st h
    obtain ⟨o, a, e1, e2, r2⟩ := r.has (i := i) (by rw [h]; simp)
    rw [h] at e2; cases e2
    exact ⟨o, e1, elems_spec r2⟩
  · intro h b
    apply Classical.byContradiction
    intro hb
    obtain ⟨i, o, ho, _⟩ := r.noLeak hb
    rw [r.absent.1 (h i)] at ho; cases ho

/-- C59: an array that has storage cannot be destroyed twice, not even when it has no elements. -/
theorem C59_destroyed_once {h h' : Heap V} {o : DA} {b : Nat} (ho : o.ptr = some b) (hd : DA.dtor h o = some h') :
    DA.dtor h' o = none := by
  have hb : h'.blk b = none := by
    unfold DA.dtor DA.dealloc at hd
    rw [ho] at hd
    obtain ⟨g, _, hg⟩ := Option.bind_eq_some_iff.mp hd
    simp only [Heap.free] at hg
    split at hg
    · cases hg
    · split at hg
      · cases hg; simp
      · cases hg
  simp only [DA.dtor, DA.destroyElems, DA.dealloc, ho, hb, Heap.free, Option.bind_none]

/-- What assignment does to the array it is called on: all or nothing, except that element
assignments that throw, and (for size types with zero) a failing replacement, change it. -/
theorem C59_assign_outcome (lo hi : Nat) (A : Nat → Option (DAbs V)) (i : Nat) (src : List (Item V)) (al : Bool) (left : V) (xs : List V)
    (hx : A i = some (.held xs true)) :
    (DAbs.reassign lo hi A i src al left).2 = false → ∃ st, (DAbs.reassign lo hi A i src al left).1 i = some (.held (src.map (·.val)) st) := by
  have over_all : ∀ (xs : List V) (src : List (Item V)), src.length = xs.length → src.any (·.throws) = false →
      DAbs.over left xs src = src.map (·.val) := by
    intro xs
    induction xs with
    | nil => intro src h _; simp at h; subst h; rfl
    | cons x xs ih =>
      intro src h ht
      cases src with
      | nil => simp at h
      | cons it its =>
        simp only [List.any_cons, Bool.or_eq_false_iff] at ht
        simp only [DAbs.over, ht.1, Bool.false_eq_true, if_false, List.map_cons]
        rw [ih its (by simpa using h) ht.2]
  simp only [DAbs.reassign, hx]
  split
  · rename_i hl
    intro h
    exact ⟨true, by simp only [upd_same, over_all xs src hl h]⟩
  · split
    · rename_i ys hy
      intro _
      unfold DAbs.copied at hy
      split at hy
      · cases hy; exact ⟨true, upd_same _ _ _⟩
      · cases hy
    · intro h; cases h

/-- A history for an example. -/
def arrayDemo : List (DOp Nat) :=
  [.new 0, .from 1 [⟨1, false⟩, ⟨2, false⟩, ⟨3, false⟩] false, .from 2 [⟨7, false⟩, ⟨8, true⟩] false, .copy 2 1 false none,
   .assign 2 [⟨4, false⟩, ⟨5, true⟩, ⟨6, false⟩] false 0, .assign 1 [⟨9, false⟩] true 0, .moveAssign 0 2, .swap 0 1,
   .assign 2 [⟨5, false⟩] false 0, .drop 0]

example : PreHist (DAbs.spec 0 10) (DAbs.pre 0) (fun _ => none) arrayDemo := by
  refine ⟨?_, ?_, ?_, ?_, ?_, ?_, ?_, ?_, ?_, ?_, trivial⟩ <;>
    simp [DAbs.pre, DAbs.spec, DAbs.make, DAbs.reassign, DAbs.copied, DAbs.over, DAbs.elems, DAbs.gone, marked, upd]

example : (runHist (dstep 0 10) (DWorld.start Nat) arrayDemo).map
    (fun p => (p.2, (p.1.obj 1).bind (·.elems p.1.heap), (p.1.obj 2).bind (·.elems p.1.heap))) =
    some ([false, false, true, false, true, true, false, false, false, false], some [4, 0, 3], some [5]) := by decide +kernel

/-- C59 is violated: after the elements of an array were moved to another one, `size()` fails
its assertion, and so do iteration and copying. -/
theorem C59_moved_from_violated :
    (∃ w, runHist (dstep 0 10) (DWorld.start Nat) [.from 0 [⟨1, false⟩] false, .move 1 0] = some (w, [false, false]) ∧
      (w.obj 0).map (·.size) = some none ∧ (w.obj 0).map (·.elems w.heap) = some none) ∧
    runHist (dstep 0 10) (DWorld.start Nat) [.from 0 [⟨1, false⟩] false, .move 1 0, .copy 2 0 false none] = none :=
  ⟨⟨_, rfl, by decide +kernel, by decide +kernel⟩, rfl⟩

end Verif.Containers
