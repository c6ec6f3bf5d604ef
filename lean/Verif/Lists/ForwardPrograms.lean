import Verif.Lists.ForwardProps
import Verif.Lists.Programs

/-!
# Programs that use singly linked lists with iterators (C107)

As `Programs.lean`, for `forward_linked_list` (`forward_linked_list.cpp` 36-133). An iterator is the address of a node or of the list itself (`before_begin()`), or
null; the end of every list is null. Functions take the position in front of the place where they do something.
-/

namespace Verif.Lists

open Verif

variable {V R : Type}

/-! ## Model -/

/-- What the program can do without changing which elements there are. `l` names a list, `x` and `y` are variables with iterators. In `next`, `deref`, `write`, `atEnd` and
`same` the list in which `x` is appears only for the description; the code does not look at it. -/
inductive FLook (V : Type) where
  /-- `x = l.before_begin()` -/
  | beforeBegin (l x : Nat)
  /-- `x = begin(l)` -/
  | first (l x : Nat)
  /-- `y = next(x)` -/
  | next (l x y : Nat)
  /-- `x == l.end()` -/
  | atEnd (l x : Nat)
  /-- `x == y` -/
  | same (l x y : Nat)
  /-- `*x` -/
  | deref (l x : Nat)
  /-- `*x = v` -/
  | write (l x : Nat) (v : V)
  | empty (l : Nat)
  | front (l : Nat)
  /-- all elements by a range-based `for` -/
  | iterate (l : Nat)

/-- The functions. `fail` says which construction of an element throws, if any. -/
inductive FCall (V : Type) where
  | new (l : Nat)
  | newFrom (l : Nat) (vs : List V) (fail : Option Nat)
  /-- a copy of `src` -/
  | copyOf (l src : Nat) (fail : Option Nat)
  /-- move construction from `src` -/
  | moveOf (l src : Nat)
  /-- the end of the lifetime of `l` -/
  | drop (l : Nat)
  /-- `y = &push_front(l, v)` -/
  | pushFront (l : Nat) (v : V) (fail : Bool) (y : Nat)
  | popFront (l : Nat)
  /-- `y = l.lazy_insert_after(x, [`y = l.insert_after(x, v)`] { return v; })` -/
  | insertAfter (l x : Nat) (v : V) (fail : Bool) (y : Nat)
  | appendAfter (l x : Nat) (vs : List V) (fail : Option Nat)
  /-- `y = l.erase_after(x)` -/
  | eraseAfter (l x y : Nat)
  /-- `erase_after(l, x, z)` -/
  | eraseRange (l x z : Nat)
  /-- `l.splice_after(x, o, i, j)`: the elements behind `i` up to `j` -/
  | spliceAfter (l x o i j : Nat)
  | clear (l : Nat)
  | swap (l o : Nat)
  | moveAssign (l o : Nat)
  | assign (l : Nat) (vs : List V) (left : V) (fail : Option Nat)
  | copyAssign (l o : Nat) (left : V) (fail : Option Nat)

/-- A program. After a call it learns if the call threw. -/
inductive FProg (V R : Type) where
  | ret (r : R)
  | look (q : FLook V) (k : LAns V → FProg V R)
  | call (m : FCall V) (k : Bool → FProg V R)

/-- The state of the program: memory, and what its variables hold. The variable of a list stands for the address of the list; that of an iterator for its
pointer (`linked_list_helper.cpp` 103), which may be null. -/
structure FCS (V : Type) where
  h : FHeap V
  lists : Nat → Option Nat
  its : Nat → Option (Option Nat)

/-- The end of a function that returns nothing. -/
def FCS.plain (c : FCS V) : Out (FHeap V) → Out (FCS V)
  | .ok h => .ok { c with h }
  | .exn h => .exn { c with h }
  | .ub => .ub

/-- The end of a constructor: the list is at the first address that was free. -/
def FCS.made (c : FCS V) (l : Nat) : Out (FHeap V) → Out (FCS V)
  | .ok h => .ok { c with h, lists := upd c.lists l (some c.h.next) }
  | .exn h => .exn { c with h }
  | .ub => .ub

/-- The end of a function that returns an iterator or a reference. -/
def FCS.gives (c : FCS V) (y : Nat) (p : Option Nat) : Out (FHeap V) → Out (FCS V)
  | .ok h => .ok { c with h, its := upd c.its y (some p) }
  | .exn h => .exn { c with h }
  | .ub => .ub

/-- An iterator that the code follows: it is set and not null. -/
def FCS.at (c : FCS V) (x : Nat) : Option Nat := (c.its x).bind id

/-- The functions (`forward_linked_list.cpp` 41-128 and the functions that `Forward.lean` names). -/
def FCall.run (c : FCS V) : FCall V → Out (FCS V)
  | .new l => c.made l (.ok c.h.makeList)
  | .newFrom l vs fail => c.made l (c.h.makeFrom vs fail)
  | .copyOf l src fail => need (c.lists src) fun a => c.made l (c.h.copyOf a fail)
  | .moveOf l src => need (c.lists src) fun a => c.made l (ptr (c.h.moveOf a))
  | .drop l => need (c.lists l) fun a => c.plain (ptr (c.h.dropList a))
  -- `lazy_push_front.cpp` 35-36: the reference is that of what `lazy_insert_after` returns
  | .pushFront l v fail y => need (c.lists l) fun a =>
    let r := c.h.insertAfterRet a v fail
    c.gives y (some r.2) r.1
  | .popFront l => need (c.lists l) fun a => c.plain (ptr ((c.h.eraseAfter a).map (·.1)))
  | .insertAfter l x v fail y => need (c.lists l) fun _ => need (c.at x) fun p =>
    let r := c.h.insertAfterRet p v fail
    c.gives y (some r.2) r.1
  | .appendAfter l x vs fail => need (c.lists l) fun _ => need (c.at x) fun p => c.plain (c.h.appendAfter p vs fail)
  | .eraseAfter l x y => need (c.lists l) fun _ => need (c.at x) fun p => need (c.h.eraseAfter p) fun r => c.gives y r.2 (.ok r.1)
  | .eraseRange l x z => need (c.lists l) fun _ => need (c.at x) fun p => need (c.its z) fun q => c.plain (ptr (c.h.eraseRange p q))
  | .spliceAfter l x o i j => need (c.lists l) fun a => need (c.at x) fun p => need (c.lists o) fun b => need (c.at i) fun bf => need (c.at j) fun bl =>
    c.plain (ptr (c.h.spliceAfter a p b bf bl))
  | .clear l => need (c.lists l) fun a => c.plain (ptr (c.h.clear a))
  | .swap l o => need (c.lists l) fun a => need (c.lists o) fun b => c.plain (ptr (c.h.swap a b))
  -- `forward_linked_list.cpp` 67-70
  | .moveAssign l o => need (c.lists l) fun a => need (c.lists o) fun b => c.plain (ptr (c.h.swap a b))
  | .assign l vs left fail => need (c.lists l) fun a => c.plain (c.h.assign a vs left fail)
  | .copyAssign l o left fail => need (c.lists l) fun a => need (c.lists o) fun b => c.plain (c.h.copyAssign a b left fail)

/-- `*it`: the value of the node at the address (`linked_list_helper.cpp` 84-88). -/
def FHeap.deref (h : FHeap V) (a : Nat) : Option V := (h.valOf a).bind id

/-- Uses of iterators (`linked_list_helper.cpp` 82-98) and the functions of `forward_linked_list.cpp` 82-94 that only look. `begin` is `next(before_begin())`
(`begin_end.cpp` 39-40), `empty` is `begin() == end()` (`is_empty.cpp` 27-31), `front` is `*begin()`. -/
def FLook.run (c : FCS V) : FLook V → Option (LAns V × FCS V)
  | .beforeBegin l x => do
    let a ← c.lists l
    some (.unit, { c with its := upd c.its x (some (some a)) })
  | .first l x => do
    let b ← c.h.nextOf (← c.lists l)
    some (.unit, { c with its := upd c.its x (some b) })
  | .next _ x y => do
    let n ← c.h.nextOf (← c.at x)
    some (.unit, { c with its := upd c.its y (some n) })
  | .atEnd _ x => do
    let p ← c.its x
    some (.flag p.isNone, c)
  | .same _ x y => do
    let p ← c.its x
    let q ← c.its y
    some (.flag (p == q), c)
  | .deref _ x => do
    let v ← c.h.deref (← c.at x)
    some (.val v, c)
  | .write _ x v => do
    let h ← c.h.setVal (← c.at x) v
    some (.unit, { c with h })
  | .empty l => do
    let b ← c.h.nextOf (← c.lists l)
    some (.flag b.isNone, c)
  | .front l => do
    let b ← c.h.nextOf (← c.lists l)
    let v ← c.h.deref (← b)
    some (.val v, c)
  | .iterate l => do
    let vs ← c.h.forward (← c.lists l)
    some (.list vs, c)

/-- Running a program; nothing if it is undefined. -/
def FProg.run : FProg V R → FCS V → Option (R × FCS V)
  | .ret r, c => some (r, c)
  | .look q k, c =>
    match q.run c with
    | some (a, c') => (k a).run c'
    | none => none
  | .call m k, c =>
    match m.run c with
    | .ok c' => (k false).run c'
    | .exn c' => (k true).run c'
    | .ub => none

/-! ## Specification

Every list is a sequence of elements, and every element has an identity (C32). A variable with an iterator holds the identity of the element, or that of the list if it is the
position before the first element, or nothing if it is the end. It may be used as long as that element is in the list that it is used with. -/

/-- The lists as sequences, and the variables. -/
structure FAS (V : Type) where
  A : Abs V
  lists : Nat → Option Nat
  its : Nat → Option (Option Nat)

/-- The elements of the list with that name. -/
def FAS.elems (a : FAS V) (l : Nat) : Option (List (Nat × V)) := (a.lists l).bind a.A.lists
/-- What a variable refers to if it is not the end. -/
def FAS.at (a : FAS V) (x : Nat) : Option Nat := (a.its x).bind id

/-- The first of the elements, or the end. -/
def start (xs : List (Nat × V)) : Option Nat := xs.head?.map (·.1)

/-- What the call means for sequences. -/
def FCall.op (a : FAS V) : FCall V → Option (FOp V)
  | .new _ => some .new
  | .newFrom _ vs fail => some (.newFrom vs fail)
  | .copyOf _ src fail => (a.lists src).map fun k => .copyOf k fail
  | .moveOf _ src => (a.lists src).map fun k => .moveOf k
  | .drop l => (a.lists l).map fun k => .drop k
  | .pushFront l v fail _ => (a.lists l).map fun k => .pushFront k v fail
  | .popFront l => (a.lists l).map fun k => .popFront k
  | .insertAfter l x v fail _ => do some (.insertAfter (← a.lists l) (← a.at x) v fail)
  | .appendAfter l x vs fail => do some (.appendAfter (← a.lists l) (← a.at x) vs fail)
  | .eraseAfter l x _ => do some (.eraseAfter (← a.lists l) (← a.at x))
  | .eraseRange l x z => do some (.eraseRange (← a.lists l) (← a.at x) (← a.its z))
  | .spliceAfter l x o i j => do some (.spliceAfter (← a.lists l) (← a.at x) (← a.lists o) (← a.at i) (← a.at j))
  | .clear l => (a.lists l).map fun k => .clear k
  | .swap l o => do some (.swap (← a.lists l) (← a.lists o))
  | .moveAssign l o => do some (.moveAssign (← a.lists l) (← a.lists o))
  | .assign l vs left fail => (a.lists l).map fun k => .assign k vs left fail
  | .copyAssign l o left fail => do some (.copyAssign (← a.lists l) (← a.lists o) left fail)

/-- The list that the call makes. -/
def FCall.makes : FCall V → Option Nat
  | .new l | .newFrom l _ _ | .copyOf l _ _ | .moveOf l _ => some l
  | _ => none

/-- The variable that the call assigns and what it then refers to, in the lists `B` after the call: the first element, or the element that then is behind the position. -/
def FCall.result (a : FAS V) (B : Abs V) : FCall V → Option (Nat × Option Nat)
  | .pushFront l _ _ y => (a.lists l).map fun k => (y, start (B.at' k))
  | .insertAfter l x _ _ y | .eraseAfter l x y => (a.lists l).bind fun k => (a.at x).map fun p => (y, start (behind k p (B.at' k)))
  | _ => none

/-- The meaning of a call: if it throws, and what then is. -/
def FCall.mean (m : FCall V) (a : FAS V) : Option (Bool × FAS V) :=
  (m.op a).map fun op =>
    let r := a.A.fspec op
    (r.2,
      { A := r.1
        lists := match r.2, m.makes with
          | false, some l => upd a.lists l (some a.A.next)
          | _, _ => a.lists
        its := match r.2, m.result a r.1 with
          | false, some (y, p) => upd a.its y (some p)
          | _, _ => a.its })

/-- What can be seen. -/
def FLook.mean (a : FAS V) : FLook V → Option (LAns V × FAS V)
  | .beforeBegin l x => (a.lists l).map fun k => (.unit, { a with its := upd a.its x (some (some k)) })
  | .first l x => (a.elems l).map fun xs => (.unit, { a with its := upd a.its x (some (start xs)) })
  | .next l x y => (a.lists l).bind fun k => (a.at x).bind fun p => (a.A.lists k).map fun xs =>
    (.unit, { a with its := upd a.its y (some (start (behind k p xs))) })
  | .atEnd _ x => (a.its x).map fun p => (.flag p.isNone, a)
  | .same _ x y => (a.its x).bind fun p => (a.its y).map fun q => (.flag (decide (p = q)), a)
  | .deref l x => (a.elems l).bind fun xs => (a.at x).bind fun p => (xs.find? (·.1 = p)).map fun e => (.val e.2, a)
  | .write l x v => (a.lists l).bind fun k => (a.at x).bind fun p => (a.A.lists k).map fun xs =>
    (.unit, { a with A := a.A.set k (xs.map fun e => if e.1 = p then (p, v) else e) })
  | .empty l => (a.elems l).map fun xs => (.flag xs.isEmpty, a)
  | .front l => (a.elems l).bind fun xs => xs.head?.map fun e => (.val e.2, a)
  | .iterate l => (a.elems l).map fun xs => (.list (xs.map (·.2)), a)

/-- The meaning of a program. -/
def FProg.mean : FProg V R → FAS V → Option (R × FAS V)
  | .ret r, a => some (r, a)
  | .look q k, a => (q.mean a).bind fun x => (k x.1).mean x.2
  | .call m k, a => (m.mean a).bind fun x => (k x.1).mean x.2

/-- A variable holds an iterator of the list: an element, the position before them, or the end. -/
def FAS.In (a : FAS V) (k : Nat) (xs : List (Nat × V)) (x : Nat) : Prop := ∃ p, a.its x = some p ∧ ∀ i, p = some i → ValidPos k xs i

/-- What the program has to ensure for a look: that the list exists, and that the iterators are such of it, and refer to an element where that is needed. -/
def FLook.Pre (a : FAS V) : FLook V → Prop
  | .beforeBegin l _ | .first l _ | .empty l | .iterate l => ∃ xs, a.elems l = some xs
  | .next l x _ => ∃ k xs p, a.lists l = some k ∧ a.A.lists k = some xs ∧ a.at x = some p ∧ ValidPos k xs p
  | .atEnd l x => ∃ k xs, a.lists l = some k ∧ a.A.lists k = some xs ∧ a.In k xs x
  | .same l x y => ∃ k xs, a.lists l = some k ∧ a.A.lists k = some xs ∧ a.In k xs x ∧ a.In k xs y
  | .deref l x | .write l x _ => ∃ xs p, a.elems l = some xs ∧ a.at x = some p ∧ p ∈ ids xs
  | .front l => ∃ xs, a.elems l = some xs ∧ xs ≠ []

/-- What the program has to ensure for a call: what C32 asks. -/
def FCall.Pre (a : FAS V) (m : FCall V) : Prop := ∃ op, m.op a = some op ∧ a.A.fpre op

/-- The program does nothing that it must not, whatever it reads. -/
def FProg.legal : FProg V R → FAS V → Prop
  | .ret _, _ => True
  | .look q k, a => q.Pre a ∧ ∀ x, q.mean a = some x → (k x.1).legal x.2
  | .call m k, a => m.Pre a ∧ ∀ x, m.mean a = some x → (k x.1).legal x.2

/-! ## Proof -/

/-- Memory and variables are as described. -/
structure FAgrees (c : FCS V) (a : FAS V) : Prop where
  rel : FRel c.h a.A
  lists : c.lists = a.lists
  its : c.its = a.its

theorem FAgrees.at_eq {c : FCS V} {a : FAS V} (g : FAgrees c a) (x : Nat) : c.at x = a.at x := by simp [FCS.at, FAS.at, g.its]

theorem felems_some {a : FAS V} {l : Nat} {xs : List (Nat × V)} (h : a.elems l = some xs) : ∃ k, a.lists l = some k ∧ a.A.lists k = some xs := by
  simpa [FAS.elems, Option.bind_eq_some_iff] using h

theorem start_eq (xs : List (Nat × V)) : startOf (ids xs) none = start xs := by cases xs <;> rfl

theorem fnext_at {h : FHeap V} {A : Abs V} (r : FRel h A) {k p : Nat} {xs : List (Nat × V)} (hl : A.lists k = some xs) (hp : ValidPos k xs p) :
    h.nextOf p = some (start (behind k p xs)) := by
  obtain ⟨hc, he⟩ := r.cut hl hp
  have h1 := r.path hl
  rw [hc, ids, List.map_append, path_append] at h1
  have h2 := path_last h1.1
  have h3 : (List.map (·.1) (upTo k p xs)).getLastD k = p := he
  rw [h3] at h2
  rw [h2, ← start_eq]

theorem fnext_list {h : FHeap V} {A : Abs V} (r : FRel h A) {k : Nat} {xs : List (Nat × V)} (hl : A.lists k = some xs) :
    h.nextOf k = some (start xs) := by
  have := fnext_at r hl (Or.inl rfl)
  simpa [behind] using this

theorem fderef_node {h : FHeap V} {A : Abs V} (r : FRel h A) {l i : Nat} {v : V} {xs : List (Nat × V)} (hl : A.lists l = some xs) (hx : (i, v) ∈ xs) :
    h.deref i = some v := by
  simp [FHeap.deref, r.node.2 ⟨l, xs, hl, hx⟩]

/-- The elements behind the last of those in front. -/
theorem behind_cut {k : Nat} {P Q : List (Nat × V)} (hn : (k :: ids (P ++ Q)).Nodup) : behind k (lastId k P) (P ++ Q) = Q := by
  rcases List.eq_nil_or_concat P with rfl | ⟨P0, e, he⟩
  · simp [behind, lastId, ids]
  · rw [List.concat_eq_append] at he
    subst he
    have hl : lastId k (P0 ++ [e]) = e.1 := by simp [lastId, ids]
    have h1 := List.nodup_cons.1 hn
    have hne : e.1 ≠ k := by rintro rfl; exact h1.1 (by simp [ids])
    have hP : e.1 ∉ ids P0 := by
      have h2 : (ids P0 ++ (e.1 :: ids Q)).Nodup := by simpa [ids] using h1.2
      intro hm
      exact (List.nodup_append.1 h2).2.2 _ hm _ (List.mem_cons_self ..) rfl
    rw [hl, behind, if_neg hne, List.append_assoc, List.singleton_append, show e = (e.1, e.2) from rfl, from_cut hP]
    rfl

/-- A look. -/
theorem FLook.good {c : FCS V} {a : FAS V} (g : FAgrees c a) {q : FLook V} (hp : q.Pre a) :
    ∃ ans a' c', q.mean a = some (ans, a') ∧ q.run c = some (ans, c') ∧ FAgrees c' a' := by
  have ga := g.at_eq
  obtain ⟨r, gl, gi⟩ := g
  cases q with
  | beforeBegin l x =>
    obtain ⟨xs, hx⟩ := hp
    obtain ⟨k, hk, hl⟩ := felems_some hx
    refine ⟨_, _, { c with its := upd c.its x (some (some k)) }, by simp only [FLook.mean, hk, Option.map_some]; rfl, ?_, ?_⟩
    · simp only [FLook.run, gl, hk, Option.bind_eq_bind, Option.bind_some]
    · exact ⟨r, gl, by rw [gi]⟩
  | first l x =>
    obtain ⟨xs, hx⟩ := hp
    obtain ⟨k, hk, hl⟩ := felems_some hx
    refine ⟨_, _, { c with its := upd c.its x (some (start xs)) }, by simp only [FLook.mean, hx, Option.map_some]; rfl, ?_, ?_⟩
    · simp only [FLook.run, gl, hk, Option.bind_eq_bind, Option.bind_some, fnext_list r hl]
    · exact ⟨r, gl, by rw [gi]⟩
  | next l x y =>
    obtain ⟨k, xs, p, hk, hl, hi, hv⟩ := hp
    refine ⟨_, _, { c with its := upd c.its y (some (start (behind k p xs))) },
      by simp only [FLook.mean, hk, hl, hi, Option.bind_some, Option.map_some]; rfl, ?_, ?_⟩
    · simp only [FLook.run, ga, hi, Option.bind_eq_bind, Option.bind_some, fnext_at r hl hv]
    · exact ⟨r, gl, by rw [gi]⟩
  | atEnd l x =>
    obtain ⟨k, xs, hk, hl, p, hi, _⟩ := hp
    refine ⟨_, _, c, by simp only [FLook.mean, hi, Option.map_some]; rfl, ?_, r, gl, gi⟩
    simp only [FLook.run, gi, hi, Option.bind_eq_bind, Option.bind_some]
  | same l x y =>
    obtain ⟨k, xs, hk, hl, ⟨p, hi, _⟩, q, hj, _⟩ := hp
    refine ⟨_, _, c, by simp only [FLook.mean, hi, hj, Option.bind_some, Option.map_some]; rfl, ?_, r, gl, gi⟩
    simp only [FLook.run, gi, hi, hj, Option.bind_eq_bind, Option.bind_some, Option.some.injEq, Prod.mk.injEq, LAns.flag.injEq, and_true]
    by_cases e : p = q <;> simp [e]
  | deref l x =>
    obtain ⟨xs, p, hx, hi, hm⟩ := hp
    obtain ⟨k, hk, hl⟩ := felems_some hx
    obtain ⟨P, v, Q, rfl, hP⟩ := cut_of_mem hm
    have hf : (P ++ (p, v) :: Q).find? (fun e => decide (e.1 = p)) = some (p, v) := by
      rw [List.find?_append, List.find?_eq_none.2 (by intro e he; simp only [decide_eq_true_eq]; rintro rfl; exact hP (List.mem_map_of_mem he))]
      simp
    refine ⟨_, _, c, by simp only [FLook.mean, hx, hi, hf, Option.bind_some, Option.map_some]; rfl, ?_, r, gl, gi⟩
    simp only [FLook.run, ga, hi, Option.bind_eq_bind, Option.bind_some, fderef_node r hl (show (p, v) ∈ P ++ (p, v) :: Q by simp)]
  | write l x v =>
    obtain ⟨xs, p, hx, hi, hm⟩ := hp
    obtain ⟨k, hk, hl⟩ := felems_some hx
    obtain ⟨P, w, Q, rfl, hP⟩ := cut_of_mem hm
    obtain ⟨h', e, _, _, r'⟩ := fsetVal_spec (w := v) r hl
    have hn : (ids P ++ p :: ids Q).Nodup := by simpa [ids] using r.nodup hl
    have hQ : p ∉ ids Q := (List.nodup_cons.1 (List.nodup_append.1 hn).2.1).1
    have key : ∀ Z : List (Nat × V), p ∉ ids Z → Z.map (fun e => if e.1 = p then (p, v) else e) = Z := by
      intro Z hZ
      conv => rhs; rw [← List.map_id Z]
      refine List.map_congr_left fun e he => ?_
      rw [if_neg (by rintro rfl; exact hZ (List.mem_map_of_mem he))]
      rfl
    have hm' : (P ++ (p, w) :: Q).map (fun e => if e.1 = p then (p, v) else e) = P ++ (p, v) :: Q := by
      rw [List.map_append, List.map_cons, key P hP, key Q hQ, if_pos rfl]
    refine ⟨_, _, { c with h := h' }, by simp only [FLook.mean, hk, hl, hi, hm', Option.bind_some, Option.map_some]; rfl, ?_, ?_⟩
    · simp only [FLook.run, ga, hi, Option.bind_eq_bind, Option.bind_some, e]
    · exact ⟨r', gl, gi⟩
  | empty l =>
    obtain ⟨xs, hx⟩ := hp
    obtain ⟨k, hk, hl⟩ := felems_some hx
    refine ⟨_, _, c, by simp only [FLook.mean, hx, Option.map_some]; rfl, ?_, r, gl, gi⟩
    simp only [FLook.run, gl, hk, Option.bind_eq_bind, Option.bind_some, fnext_list r hl]
    cases xs <;> rfl
  | front l =>
    obtain ⟨xs, hx, hne⟩ := hp
    obtain ⟨k, hk, hl⟩ := felems_some hx
    cases xs with
    | nil => exact absurd rfl hne
    | cons e xs =>
    refine ⟨_, _, c, by simp only [FLook.mean, hx, Option.bind_some, List.head?_cons, Option.map_some]; rfl, ?_, r, gl, gi⟩
    simp only [FLook.run, gl, hk, Option.bind_eq_bind, Option.bind_some, fnext_list r hl, start, List.head?_cons, Option.map_some,
      fderef_node r hl (show (e.1, e.2) ∈ e :: xs by simp)]
  | iterate l =>
    obtain ⟨xs, hx⟩ := hp
    obtain ⟨k, hk, hl⟩ := felems_some hx
    refine ⟨_, _, c, by simp only [FLook.mean, hx, Option.map_some]; rfl, ?_, r, gl, gi⟩
    simp only [FLook.run, gl, hk, Option.bind_eq_bind, Option.bind_some, fforward_spec r hl]

/-- What is to be shown of a call. -/
def FCall.Good (c : FCS V) (a : FAS V) (m : FCall V) : Prop :=
  ∃ b a' c', m.mean a = some (b, a') ∧ m.run c = Out.of b c' ∧ FAgrees c' a'

/-- A function that returns nothing. -/
theorem FCall.good_plain {c : FCS V} {a : FAS V} (g : FAgrees c a) {m : FCall V} {op : FOp V} (ho : m.op a = some op) (hp : a.A.fpre op)
    (hr : m.run c = c.plain (fstep c.h op)) (hm : m.makes = none) (hres : ∀ B, m.result a B = none) : m.Good c a := by
  obtain ⟨h', e, r'⟩ := fstep_refines c.h a.A op g.rel hp
  refine ⟨_, _, { c with h := h' }, by simp only [FCall.mean, ho, Option.map_some]; rfl, ?_, ?_⟩
  · rw [hr, e]
    cases (a.A.fspec op).2 <;> rfl
  · refine ⟨r', ?_, ?_⟩
    · simp only [hm]
      cases (a.A.fspec op).2 <;> exact g.lists
    · simp only [hres]
      cases (a.A.fspec op).2 <;> exact g.its

/-- A constructor. -/
theorem FCall.good_made {c : FCS V} {a : FAS V} (g : FAgrees c a) {m : FCall V} {op : FOp V} {l : Nat} (ho : m.op a = some op) (hp : a.A.fpre op)
    (hr : m.run c = c.made l (fstep c.h op)) (hm : m.makes = some l) (hres : ∀ B, m.result a B = none) : m.Good c a := by
  obtain ⟨h', e, r'⟩ := fstep_refines c.h a.A op g.rel hp
  have hn : c.h.next = a.A.next := g.rel.same.symm
  refine ⟨_, _, { h := h', lists := if (a.A.fspec op).2 then c.lists else upd c.lists l (some c.h.next), its := c.its },
    by simp only [FCall.mean, ho, Option.map_some]; rfl, ?_, ?_⟩
  · rw [hr, e]
    cases (a.A.fspec op).2 <;> rfl
  · refine ⟨r', ?_, ?_⟩
    · simp only [hm, hn, g.lists]
      cases (a.A.fspec op).2 <;> rfl
    · simp only [hres]
      cases (a.A.fspec op).2 <;> exact g.its

/-- A function that returns an iterator or a reference. -/
theorem FCall.good_gives {c : FCS V} {a : FAS V} (g : FAgrees c a) {m : FCall V} {op : FOp V} {y : Nat} {p : Option Nat} (ho : m.op a = some op)
    (hp : a.A.fpre op) (hr : m.run c = c.gives y p (fstep c.h op)) (hm : m.makes = none)
    (hres : (a.A.fspec op).2 = false → m.result a (a.A.fspec op).1 = some (y, p)) : m.Good c a := by
  obtain ⟨h', e, r'⟩ := fstep_refines c.h a.A op g.rel hp
  refine ⟨_, _, { h := h', lists := c.lists, its := if (a.A.fspec op).2 then c.its else upd c.its y (some p) },
    by simp only [FCall.mean, ho, Option.map_some]; rfl, ?_, ?_⟩
  · rw [hr, e]
    cases (a.A.fspec op).2 <;> rfl
  · refine ⟨r', ?_, ?_⟩
    · simp only [hm]
      cases (a.A.fspec op).2 <;> exact g.lists
    · cases hb : (a.A.fspec op).2 with
      | true => exact g.its
      | false => simp only [hres hb, g.its]; rfl

/-- A call. -/
theorem FCall.good {c : FCS V} {a : FAS V} (g : FAgrees c a) {m : FCall V} (hp : m.Pre a) : m.Good c a := by
  have gl := g.lists
  have gi := g.its
  have ga := g.at_eq
  obtain ⟨op, ho, hp⟩ := hp
  cases m with
  | new l | newFrom l vs fail => cases ho; exact good_made (l := l) g rfl hp rfl rfl (fun _ => rfl)
  | copyOf l src fail | moveOf l src =>
    obtain ⟨k, hk, rfl⟩ := Option.map_eq_some_iff.1 ho
    exact good_made (l := l) g ho hp (by simp only [FCall.run, gl, hk, need]; rfl) rfl (fun _ => rfl)
  | drop l | popFront l | clear l | assign l vs left fail =>
    obtain ⟨k, hk, rfl⟩ := Option.map_eq_some_iff.1 ho
    exact good_plain g ho hp (by simp only [FCall.run, gl, hk, need]; rfl) rfl (fun _ => rfl)
  | swap l o | moveAssign l o | copyAssign l o left fail =>
    have ho' := ho
    simp only [FCall.op, Option.bind_eq_bind, Option.bind_eq_some_iff, Option.some.injEq] at ho'
    obtain ⟨k, hk, k', hk', rfl⟩ := ho'
    exact good_plain g ho hp (by simp only [FCall.run, gl, hk, hk', need]; rfl) rfl (fun _ => rfl)
  | appendAfter l x vs fail =>
    have ho' := ho
    simp only [FCall.op, Option.bind_eq_bind, Option.bind_eq_some_iff, Option.some.injEq] at ho'
    obtain ⟨k, hk, p, hx, rfl⟩ := ho'
    exact good_plain g ho hp (by simp only [FCall.run, gl, ga, hk, hx, need]; rfl) rfl (fun _ => rfl)
  | eraseRange l x z =>
    have ho' := ho
    simp only [FCall.op, Option.bind_eq_bind, Option.bind_eq_some_iff, Option.some.injEq] at ho'
    obtain ⟨k, hk, p, hx, q, hz, rfl⟩ := ho'
    exact good_plain g ho hp (by simp only [FCall.run, gl, gi, ga, hk, hx, hz, need]; rfl) rfl (fun _ => rfl)
  | spliceAfter l x o i j =>
    have ho' := ho
    simp only [FCall.op, Option.bind_eq_bind, Option.bind_eq_some_iff, Option.some.injEq] at ho'
    obtain ⟨k, hk, p, hx, k', hk', q, hz, q', hz', rfl⟩ := ho'
    exact good_plain g ho hp (by simp only [FCall.run, gl, ga, hk, hx, hk', hz, hz', need]; rfl) rfl (fun _ => rfl)
  | pushFront l v fail y =>
    obtain ⟨k, hk, rfl⟩ := Option.map_eq_some_iff.1 ho
    obtain ⟨xs, hl⟩ : ∃ xs, a.A.lists k = some xs := hp
    refine good_gives (y := y) (p := some c.h.next) g ho ⟨xs, hl⟩ (by simp only [FCall.run, gl, hk, need]; rfl) rfl ?_
    intro hb
    cases fail with
    | true => cases hb
    | false =>
      have hn : a.A.next = c.h.next := g.rel.same
      simp [FCall.result, hk, Abs.fspec, Abs.set, Abs.use, Abs.at', hl, hn, start]
  | insertAfter l x v fail y =>
    have ho' := ho
    simp only [FCall.op, Option.bind_eq_bind, Option.bind_eq_some_iff, Option.some.injEq] at ho'
    obtain ⟨k, hk, p, hx, rfl⟩ := ho'
    obtain ⟨⟨xs, hl⟩, hv⟩ := hp
    rw [Abs.at_of hl] at hv
    have hp' : a.A.fpre (.insertAfter k p v fail) := ⟨⟨xs, hl⟩, by rw [Abs.at_of hl]; exact hv⟩
    refine good_gives (y := y) (p := some c.h.next) g ho hp' (by simp only [FCall.run, gl, ga, hk, hx, need]; rfl) rfl ?_
    intro hb
    cases fail with
    | true => cases hb
    | false =>
      obtain ⟨h', _, r'⟩ := fstep_refines c.h a.A _ g.rel hp'
      obtain ⟨_, he⟩ := g.rel.cut hl hv
      have hn : a.A.next = c.h.next := g.rel.same
      simp only [Abs.fspec, Bool.false_eq_true, if_false, Abs.at_of hl] at r' ⊢
      have hy : ((a.A.set k (upTo k p xs ++ (a.A.next, v) :: behind k p xs)).use 1).lists k = some (upTo k p xs ++ (a.A.next, v) :: behind k p xs) := by
        simp [Abs.set, Abs.use]
      have hb2 := behind_cut (r'.nodupAll hy)
      rw [he] at hb2
      simp only [FCall.result, hk, hx, Option.bind_some, Option.map_some, Abs.at_of hy, hb2, start, List.head?_cons]
      rw [hn]
  | eraseAfter l x y =>
    have ho' := ho
    simp only [FCall.op, Option.bind_eq_bind, Option.bind_eq_some_iff, Option.some.injEq] at ho'
    obtain ⟨k, hk, p, hx, rfl⟩ := ho'
    obtain ⟨⟨xs, hl⟩, hv, hne⟩ := hp
    rw [Abs.at_of hl] at hv hne
    have hp' : a.A.fpre (.eraseAfter k p) := ⟨⟨xs, hl⟩, by rw [Abs.at_of hl]; exact hv, by rw [Abs.at_of hl]; exact hne⟩
    obtain ⟨hc, he⟩ := g.rel.cut hl hv
    obtain ⟨e, Q, hQ⟩ := List.exists_cons_of_ne_nil hne
    obtain ⟨h', eq, r'⟩ := ferase_spec (P := upTo k p xs) (x := e) (Q := Q) g.rel (by rw [hl, ← hQ, ← hc])
    rw [he, start_eq] at eq
    refine good_gives (y := y) (p := start Q) g ho hp' ?_ rfl ?_
    · simp only [FCall.run, gl, ga, hk, hx, need, eq, fstep, Option.map_some, ptr]
    · intro _
      have hy : (a.A.set k (upTo k p xs ++ Q)).lists k = some (upTo k p xs ++ Q) := by simp [Abs.set]
      have hb2 := behind_cut (k := k) (P := upTo k p xs) (Q := Q) (r'.nodupAll (xs := upTo k p xs ++ Q) (by simp))
      rw [he] at hb2
      simp only [FCall.result, hk, hx, Option.bind_some, Option.map_some, Abs.fspec, Abs.at_of hl, hQ, List.tail_cons, Abs.at_of hy, hb2]

/-- C107, from any memory and variables. A program that uses iterators of singly linked lists as the functions ask runs without undefined behaviour and gives the result that
its meaning for sequences has; memory and variables are again as the meaning says.

Missing from the full claim: constructions of lists that throw between the first element and the last (`C32_failed_copy_violated`), and splices within one list, which
the code excludes by an assertion. -/
theorem C107_program_partial : ∀ (P : FProg V R) {c : FCS V} {a : FAS V}, FAgrees c a → P.legal a →
    ∃ x a' c', P.mean a = some (x, a') ∧ P.run c = some (x, c') ∧ FAgrees c' a'
  | .ret x, c, a, g, _ => ⟨x, a, c, rfl, rfl, g⟩
  | .look q k, c, a, g, hp => by
    obtain ⟨ans, a1, c1, e1, e2, g1⟩ := FLook.good g hp.1
    obtain ⟨x, a', c', e3, e4, g'⟩ := C107_program_partial (k ans) g1 (hp.2 _ e1)
    exact ⟨x, a', c', by simp only [FProg.mean, e1, Option.bind_some, e3], by simp only [FProg.run, e2, e4], g'⟩
  | .call m k, c, a, g, hp => by
    obtain ⟨b, a1, c1, e1, e2, g1⟩ := FCall.good g hp.1
    obtain ⟨x, a', c', e3, e4, g'⟩ := C107_program_partial (k b) g1 (hp.2 _ e1)
    refine ⟨x, a', c', by simp only [FProg.mean, e1, Option.bind_some, e3], ?_, g'⟩
    cases b <;> simp only [FProg.run, e2, Out.of, e4] <;> simp_all

/-- Nothing exists. -/
def FCS.start (V : Type) : FCS V := ⟨FHeap.start V, fun _ => none, fun _ => none⟩
/-- Nothing exists. -/
def FAS.start (V : Type) : FAS V := ⟨Abs.start V, fun _ => none, fun _ => none⟩

theorem fagrees_start (V : Type) : FAgrees (FCS.start V) (FAS.start V) := ⟨frel_start V, rfl, rfl⟩

/-- C107, programs that start with nothing: the result is the one of the meaning, and afterwards every list shows the elements that it has by the meaning, and every node
that is allocated is in exactly one of them. Missing: see `C107_program_partial`. -/
theorem C107_forward_list_program_partial (P : FProg V R) (hp : P.legal (FAS.start V)) :
    ∃ x a c, P.mean (FAS.start V) = some (x, a) ∧ P.run (FCS.start V) = some (x, c) ∧ FShows c.h a.A := by
  obtain ⟨x, a, c, e1, e2, g⟩ := C107_program_partial P (fagrees_start V) hp
  exact ⟨x, a, c, e1, e2, g.rel.shows⟩

/-- C107: the identities by which the meaning describes iterators are identities. In whatever state a program can be, no two elements, of the same or of different lists,
have the same one, none is that of a list, and each is the address at which the element is. -/
theorem C107_identities {c : FCS V} {a : FAS V} (g : FAgrees c a) {k k' i : Nat} {xs ys : List (Nat × V)} {v : V} (hk : a.A.lists k = some xs)
    (hk' : a.A.lists k' = some ys) (hi : (i, v) ∈ xs) :
    c.h.deref i = some v ∧ (ids xs).Nodup ∧ i ≠ k' ∧ (i ∈ ids ys → k = k') := by
  have hm : i ∈ ids xs := List.mem_map_of_mem hi
  exact ⟨fderef_node g.rel hk hi, g.rel.nodup hk, g.rel.sentNe hk hk' hm, fun h => g.rel.apart hk hk' hm h⟩

/-- The variable that a call assigns. -/
def FCall.sets : FCall V → Option Nat
  | .pushFront _ _ _ y | .insertAfter _ _ _ _ y | .eraseAfter _ _ y => some y
  | _ => none

theorem FCall.result_sets {a : FAS V} {B : Abs V} {m : FCall V} {z : Nat} {p : Option Nat} (h : m.result a B = some (z, p)) : m.sets = some z := by
  cases m <;> simp only [FCall.result] at h <;> try cases h
  case pushFront =>
    obtain ⟨k, _, h⟩ := Option.map_eq_some_iff.1 h
    simp only [Prod.mk.injEq] at h
    simp [FCall.sets, h.1]
  case insertAfter | eraseAfter =>
    obtain ⟨k, _, h⟩ := Option.bind_eq_some_iff.1 h
    obtain ⟨e, _, h⟩ := Option.map_eq_some_iff.1 h
    simp only [Prod.mk.injEq] at h
    simp [FCall.sets, h.1]

/-- C107: iterators stay valid. If a variable holds an iterator of an element, and a call (on whatever lists, throwing or not) neither assigns the variable nor erases or assigns
to the element, then afterwards the variable holds an iterator of the same element, which has the same value and is in exactly one list — for a splice, a swap or a move perhaps
another one. -/
theorem C107_iterator_kept {c : FCS V} {a : FAS V} (g : FAgrees c a) {m : FCall V} {op : FOp V} (ho : m.op a = some op) (hp : a.A.fpre op) {x p : Nat} {v : V}
    (hx : c.its x = some (some p)) (hv : a.A.Holds (p, v)) (he : ¬ op.ends a.A (p, v)) (hs : m.sets ≠ some x) :
    ∃ b a' c', m.mean a = some (b, a') ∧ m.run c = Out.of b c' ∧ c'.its x = some (some p) ∧ c'.h.deref p = some v ∧
      ∃! k, ∃ xs, a'.A.lists k = some xs ∧ p ∈ ids xs := by
  obtain ⟨b, a', c', e1, e2, g'⟩ := FCall.good g (m := m) ⟨op, ho, hp⟩
  have hS : a'.A = (a.A.fspec op).1 ∧ a'.its x = some (some p) := by
    simp only [FCall.mean, ho, Option.map_some, Option.some.injEq, Prod.mk.injEq] at e1
    obtain ⟨_, rfl⟩ := e1
    refine ⟨rfl, ?_⟩
    have hx' : a.its x = some (some p) := g.its ▸ hx
    show (match (motive := Bool → Option (Nat × Option Nat) → Nat → Option (Option Nat)) (a.A.fspec op).2, m.result a (a.A.fspec op).1 with
      | false, some (y, p) => upd a.its y (some p)
      | _, _ => a.its) x = some (some p)
    cases (a.A.fspec op).2 with
    | true => exact hx'
    | false =>
      cases hr : m.result a (a.A.fspec op).1 with
      | none => exact hx'
      | some w =>
        have hz : x ≠ w.1 := by
          rintro rfl
          exact hs (FCall.result_sets hr)
        show upd a.its w.1 (some w.2) x = some (some p)
        rw [upd_other _ _ hz]; exact hx'
  obtain ⟨k, xs, hk, hm⟩ := Abs.holds_fspec g.rel.next_none hv op hp he
  rw [← hS.1] at hk
  refine ⟨b, a', c', e1, e2, by rw [g'.its]; exact hS.2, fderef_node g'.rel hk hm, k, ⟨xs, hk, List.mem_map_of_mem hm⟩, ?_⟩
  rintro k' ⟨ys, hk', hy⟩
  exact ((C107_identities g' hk hk' hm).2.2.2 hy).symm

/-! ## Examples -/

instance (A : Abs V) : (op : FOp V) → Decidable (A.fpre op) := by
  intro op
  cases op with
  | eraseRange l pos last => cases last <;> dsimp only [Abs.fpre] <;> infer_instance
  | popFront l =>
    exact decidable_of_iff (A.Has l ∧ (A.at' l).isEmpty = false) (by simp [Abs.fpre])
  | eraseAfter l pos =>
    exact decidable_of_iff (A.Has l ∧ ValidPos l (A.at' l) pos ∧ (behind l pos (A.at' l)).isEmpty = false) (by simp [Abs.fpre])
  | _ => dsimp only [Abs.fpre]; infer_instance

/-- Deciding that a variable holds an iterator of a list, for the examples. -/
def FAS.isIn (a : FAS V) (k : Nat) (xs : List (Nat × V)) (x : Nat) : Bool := match a.its x with
  | some (some p) => decide (ValidPos k xs p)
  | some none => true
  | none => false

theorem FAS.in_of_isIn {a : FAS V} {k : Nat} {xs : List (Nat × V)} {x : Nat} (h : a.isIn k xs x = true) : a.In k xs x := by
  unfold FAS.isIn at h
  split at h
  · next p e => exact ⟨_, e, by rintro i ⟨⟩; exact of_decide_eq_true h⟩
  · next e => exact ⟨_, e, by rintro i ⟨⟩⟩
  · cases h

/-- Deciding the precondition of a look, for the examples. -/
def FLook.legal (a : FAS V) : FLook V → Bool
  | .beforeBegin l _ | .first l _ | .empty l | .iterate l => (a.elems l).isSome
  | .next l x _ => match a.lists l, a.at x with
    | some k, some p => match a.A.lists k with
      | some xs => decide (ValidPos k xs p)
      | none => false
    | _, _ => false
  | .atEnd l x => match a.lists l with
    | some k => match a.A.lists k with
      | some xs => a.isIn k xs x
      | none => false
    | _ => false
  | .same l x y => match a.lists l with
    | some k => match a.A.lists k with
      | some xs => a.isIn k xs x && a.isIn k xs y
      | none => false
    | _ => false
  | .deref l x | .write l x _ => match a.elems l, a.at x with
    | some xs, some p => decide (p ∈ ids xs)
    | _, _ => false
  | .front l => match a.elems l with
    | some xs => !xs.isEmpty
    | none => false

theorem FLook.pre_of_legal {a : FAS V} {q : FLook V} (h : q.legal a = true) : q.Pre a := by
  cases q with
  | beforeBegin | first | empty | iterate => exact Option.isSome_iff_exists.1 h
  | next =>
    simp only [FLook.legal] at h
    split at h
    · next k p e1 e2 =>
      split at h
      · next xs e3 => exact ⟨k, xs, p, e1, e3, e2, of_decide_eq_true h⟩
      · cases h
    · cases h
  | atEnd =>
    simp only [FLook.legal] at h
    split at h
    · next k e1 =>
      split at h
      · next xs e3 => exact ⟨k, xs, e1, e3, FAS.in_of_isIn h⟩
      · cases h
    · cases h
  | same =>
    simp only [FLook.legal] at h
    split at h
    · next k e1 =>
      split at h
      · next xs e3 =>
        rw [Bool.and_eq_true] at h
        exact ⟨k, xs, e1, e3, FAS.in_of_isIn h.1, FAS.in_of_isIn h.2⟩
      · cases h
    · cases h
  | deref | write =>
    simp only [FLook.legal] at h
    split at h
    · next xs p e1 e2 => exact ⟨xs, p, e1, e2, of_decide_eq_true h⟩
    · cases h
  | front =>
    simp only [FLook.legal] at h
    split at h
    · next xs e1 => exact ⟨xs, e1, by simpa using h⟩
    · cases h

/-- Deciding the precondition of a call, for the examples. -/
def FCall.legal (a : FAS V) (m : FCall V) : Bool := match m.op a with
  | some op => decide (a.A.fpre op)
  | none => false

theorem FCall.pre_of_legal {a : FAS V} {m : FCall V} (h : m.legal a = true) : m.Pre a := by
  simp only [FCall.legal] at h
  split at h
  · next op e => exact ⟨op, e, of_decide_eq_true h⟩
  · cases h

/-- Deciding if a program is legal, for the examples. -/
def FProg.ok : FProg V R → FAS V → Bool
  | .ret _, _ => true
  | .look q k, a => q.legal a && match q.mean a with
    | some x => (k x.1).ok x.2
    | none => true
  | .call m k, a => m.legal a && match m.mean a with
    | some x => (k x.1).ok x.2
    | none => true

theorem FProg.legal_of_ok : ∀ {P : FProg V R} {a : FAS V}, P.ok a = true → P.legal a
  | .ret _, _, _ => trivial
  | .look q k, a, h => by
    simp only [FProg.ok, Bool.and_eq_true] at h
    refine ⟨FLook.pre_of_legal h.1, fun x hx => ?_⟩
    rw [hx] at h
    exact FProg.legal_of_ok h.2
  | .call m k, a, h => by
    simp only [FProg.ok, Bool.and_eq_true] at h
    refine ⟨FCall.pre_of_legal h.1, fun x hx => ?_⟩
    rw [hx] at h
    exact FProg.legal_of_ok h.2

/-- Two lists; the second and third element of the first one are spliced behind the first one of the second list and reached by an iterator that was made before; an insertion
that throws, one that does not, a write, an erasure whose result is the end, an erasure of a range, and a swap after which the iterator is one of the other list. -/
def exForward : FProg Nat (List (LAns Nat)) :=
  .call (.newFrom 0 [1, 2, 3, 4] none) fun _ => .call (.newFrom 1 [10, 20] none) fun _ =>
  .look (.first 0 0) fun _ => .look (.next 0 0 1) fun _ => .look (.next 0 1 2) fun _ => .look (.first 1 3) fun _ =>
  .call (.spliceAfter 1 3 0 0 2) fun _ => .look (.deref 1 1) fun a =>
  .call (.insertAfter 1 2 7 true 4) fun t => .call (.insertAfter 1 2 8 false 4) fun _ =>
  .look (.write 1 1 (if t then 5 else 6)) fun _ => .call (.eraseAfter 1 4 5) fun _ => .look (.atEnd 1 5) fun e =>
  .look (.iterate 1) fun b => .look (.beforeBegin 1 6) fun _ => .call (.eraseRange 1 6 2) fun _ =>
  .call (.swap 0 1) fun _ => .look (.deref 0 2) fun d => .look (.first 0 7) fun _ => .look (.same 0 7 2) fun s =>
  .look (.iterate 0) fun f => .look (.iterate 1) fun h => .look (.front 1) fun i => .ret [a, e, b, d, s, f, h, i]

/-- `exForward` is legal; what it gives. -/
example : exForward.legal (FAS.start Nat) ∧
    (exForward.run (FCS.start Nat)).map (·.1) =
      some [.val 2, .flag true, .list [10, 5, 3, 8], .val 3, .flag true, .list [3, 8], .list [1, 4], .val 1] :=
  ⟨FProg.legal_of_ok (by decide +kernel), by decide +kernel⟩

/-- A list of two, and an iterator of the first element. -/
def exFirstForward : FProg Nat Unit := .call (.newFrom 0 [1, 2] none) fun _ => .look (.first 0 0) fun _ => .ret ()

/-- `C107_iterator_kept` applies to an iterator of an element behind which another one is erased. -/
example : ∃ (c : FCS Nat) (a : FAS Nat), FAgrees c a ∧ (FCall.eraseAfter 0 0 1).op a = some (.eraseAfter 0 1) ∧ a.A.fpre (.eraseAfter 0 1) ∧
    c.its 0 = some (some 1) ∧ a.A.Holds (1, 1) ∧ ¬ (FOp.eraseAfter 0 1).ends a.A (1, 1) ∧ (FCall.eraseAfter 0 0 1 : FCall Nat).sets ≠ some 0 := by
  obtain ⟨x, a, c, e1, _, g⟩ := C107_program_partial exFirstForward (fagrees_start Nat) (FProg.legal_of_ok (by decide +kernel))
  simp only [exFirstForward, FProg.mean, FCall.mean, FCall.op, FLook.mean, FAS.start, Abs.start] at e1
  cases e1
  exact ⟨c, _, g, rfl, by decide +kernel, by rw [g.its]; decide +kernel, ⟨0, [(1, 1), (2, 2)], rfl, by simp⟩, by
    intro h
    have : (2 : Nat) = 1 := congrArg (fun o => (o.getD (0, 0)).1) h
    omega, by decide⟩

end Verif.Lists
