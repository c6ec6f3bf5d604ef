import Verif.Lists.SizedProps
import Verif.Lists.Returned
import Verif.Lists.Stable

/-!
# Programs that use lists with iterators (C105)

A program makes lists, keeps iterators of them in variables, passes them to the functions of the lists (of the same list or, for splices, of another one), and
goes on according to what it reads. The lists are those of `std_containers::list`, that is `sized_list` (`std/list.cpp` 50-128). An iterator is the
address of a node, so the proof is about the links of nodes that move from list to list.
-/

namespace Verif.Lists

open Verif

variable {V R : Type}

/-! ## Model -/

/-- What the program can do without changing which elements there are. `l` names a list, `x` and `y` are variables with iterators. In `next`, `prev`, `deref`, `write` and
`same` the list in which `x` is appears only for the description; the code does not look at it. -/
inductive LLook (V : Type) where
  /-- `x = l.begin()` -/
  | first (l x : Nat)
  /-- `x = l.end()` -/
  | last (l x : Nat)
  /-- `y = next(x)` -/
  | next (l x y : Nat)
  /-- `y = prev(x)` -/
  | prev (l x y : Nat)
  /-- `*x` -/
  | deref (l x : Nat)
  /-- `*x = v` -/
  | write (l x : Nat) (v : V)
  /-- `x == y` -/
  | same (l x y : Nat)
  | size (l : Nat)
  | empty (l : Nat)
  | front (l : Nat)
  | back (l : Nat)
  /-- all elements by a range-based `for` -/
  | iterate (l : Nat)

/-- What the program gets from that. -/
inductive LAns (V : Type) where
  | unit
  | flag (b : Bool)
  | nat (n : Nat)
  | val (v : V)
  | list (vs : List V)
  deriving DecidableEq

/-- The functions. `fail` says which construction of an element throws, if any. -/
inductive LCall (V : Type) where
  | new (l : Nat)
  | newFrom (l : Nat) (vs : List V) (fail : Option Nat)
  /-- a copy of `src` -/
  | copyOf (l src : Nat) (fail : Option Nat)
  /-- move construction from `src` -/
  | moveOf (l src : Nat)
  /-- the end of the lifetime of `l` -/
  | drop (l : Nat)
  /-- `y = &l.emplace_back(v)` -/
  | pushBack (l : Nat) (v : V) (fail : Bool) (y : Nat)
  /-- `y = &l.emplace_front(v)` -/
  | pushFront (l : Nat) (v : V) (fail : Bool) (y : Nat)
  | popBack (l : Nat)
  | popFront (l : Nat)
  | append (l : Nat) (vs : List V) (fail : Option Nat)
  /-- `l.insert(x, vs)`; the program does not use what it returns (C62 shows that it is not what the standard says) -/
  | insert (l x : Nat) (vs : List V) (fail : Option Nat)
  /-- `y = l.erase(x)` -/
  | eraseOne (l x y : Nat)
  /-- `y = l.erase(x, z)` -/
  | erase (l x z y : Nat)
  /-- `l.remove_if(p)` -/
  | removeIf (l : Nat) (p : V → Bool)
  | clear (l : Nat)
  /-- `l.splice(x, o, first, last)` -/
  | splice (l x o first last : Nat)
  /-- `l.splice(x, o)` -/
  | spliceAll (l x o : Nat)
  /-- `l.splice(x, o, z)` -/
  | spliceOne (l x o z : Nat)
  | swap (l o : Nat)
  | moveAssign (l o : Nat)
  | assign (l : Nat) (vs : List V) (left : V) (fail : Option Nat)
  | copyAssign (l o : Nat) (left : V) (fail : Option Nat)
  | resize (l n : Nat) (v : V) (fail : Option Nat)

/-- A program. After a call it learns if the call threw, and the number that the call returned (zero if it returns none). -/
inductive LProg (V R : Type) where
  | ret (r : R)
  | look (q : LLook V) (k : LAns V → LProg V R)
  | call (m : LCall V) (k : Bool → Nat → LProg V R)

/-- The state of the program: memory, and what its variables hold. The variable of a list stands for the address of the list. -/
structure LCS (V : Type) where
  s : SHeap V
  lists : Nat → Option Nat
  its : Nat → Option Nat

/-- The end of a function that returns nothing (or something that the program does not use). -/
def LCS.plain (c : LCS V) : Out (SHeap V) → Out (LCS V × Nat)
  | .ok s => .ok ({ c with s }, 0)
  | .exn s => .exn ({ c with s }, 0)
  | .ub => .ub

/-- The end of a constructor: the list is at the first address that was free. -/
def LCS.made (c : LCS V) (l : Nat) : Out (SHeap V) → Out (LCS V × Nat)
  | .ok s => .ok ({ c with s, lists := upd c.lists l (some c.s.h.next) }, 0)
  | .exn s => .exn ({ c with s }, 0)
  | .ub => .ub

/-- The end of a function that returns an iterator or a reference. -/
def LCS.gives (c : LCS V) (y a : Nat) : Out (SHeap V) → Out (LCS V × Nat)
  | .ok s => .ok ({ c with s, its := upd c.its y (some a) }, 0)
  | .exn s => .exn ({ c with s }, 0)
  | .ub => .ub

/-- Using a variable that holds nothing is undefined. -/
def need {α β : Type} : Option α → (α → Out β) → Out β
  | some a, f => f a
  | none, _ => .ub

/-- The functions (`std/list.cpp` 161-426 and what they call). -/
def LCall.run (c : LCS V) : LCall V → Out (LCS V × Nat)
  | .new l => c.made l (.ok c.s.makeList)
  | .newFrom l vs fail => c.made l (c.s.makeFrom vs fail)
  | .copyOf l src fail => need (c.lists src) fun a => c.made l (c.s.copyOf a fail)
  | .moveOf l src => need (c.lists src) fun a => c.made l (ptr (c.s.moveOf a))
  | .drop l => need (c.lists l) fun a => c.plain (ptr (c.s.dropList a))
  | .pushBack l v fail y => need (c.lists l) fun a => c.gives y c.s.h.next (c.s.pushBack a v fail)
  -- `lazy_push_front.cpp` 37-42: the reference is `front(container)`
  | .pushFront l v fail y => need (c.lists l) fun a =>
    match c.s.pushFront a v fail with
    | .ok s => need (s.h.nextOf a) fun b => c.gives y b (.ok s)
    | r => c.plain r
  | .popBack l => need (c.lists l) fun a => c.plain (ptr (c.s.popBack a))
  | .popFront l => need (c.lists l) fun a => c.plain (ptr (c.s.popFront a))
  | .append l vs fail => need (c.lists l) fun a => c.plain (c.s.append a vs fail)
  | .insert l x vs fail => need (c.lists l) fun a => need (c.its x) fun p => c.plain (c.s.insert a p vs fail)
  -- `algorithms/erase.cpp` 71-75, 40-43: what is returned is the end of the range
  | .eraseOne l x y => need (c.lists l) fun a => need (c.its x) fun p => need (c.s.h.nextOf p) fun n => c.gives y n (ptr (c.s.eraseOne a p))
  | .erase l x z y => need (c.lists l) fun a => need (c.its x) fun p => need (c.its z) fun q => c.gives y q (ptr (c.s.erase a p q))
  | .removeIf l p => need (c.lists l) fun a =>
    match c.s.eraseIf a p with
    | some (s, n) => .ok ({ c with s }, n)
    | none => .ub
  | .clear l => need (c.lists l) fun a => c.plain (ptr (c.s.clear a))
  | .splice l x o first last => need (c.lists l) fun a => need (c.its x) fun p => need (c.lists o) fun b => need (c.its first) fun i => need (c.its last) fun j =>
    c.plain (ptr (c.s.splice a p b i j))
  | .spliceAll l x o => need (c.lists l) fun a => need (c.its x) fun p => need (c.lists o) fun b => c.plain (ptr (c.s.spliceAll a p b))
  | .spliceOne l x o z => need (c.lists l) fun a => need (c.its x) fun p => need (c.lists o) fun b => need (c.its z) fun i => c.plain (ptr (c.s.spliceOne a p b i))
  | .swap l o => need (c.lists l) fun a => need (c.lists o) fun b => c.plain (ptr (c.s.swap a b))
  | .moveAssign l o => need (c.lists l) fun a => need (c.lists o) fun b => c.plain (ptr (c.s.moveAssign a b))
  | .assign l vs left fail => need (c.lists l) fun a => c.plain (c.s.assign a vs left fail)
  | .copyAssign l o left fail => need (c.lists l) fun a => need (c.lists o) fun b => c.plain (c.s.copyAssign a b left fail)
  | .resize l n v fail => need (c.lists l) fun a => c.plain (c.s.resize a n v fail)

/-- Uses of iterators (`linked_list_helper.cpp` 82-101) and the functions of `std/list.cpp` 214-275 that only look. `empty` is `begin() == end()`
(`is_empty.cpp` 24-28), `front` is `*begin()` and `back` is `*prev(end())`. -/
def LLook.run (c : LCS V) : LLook V → Option (LAns V × LCS V)
  | .first l x => do
    let b ← c.s.h.nextOf (← c.lists l)
    some (.unit, { c with its := upd c.its x (some b) })
  | .last l x => do
    let a ← c.lists l
    some (.unit, { c with its := upd c.its x (some a) })
  | .next _ x y => do
    let n ← c.s.h.nextOf (← c.its x)
    some (.unit, { c with its := upd c.its y (some n) })
  | .prev _ x y => do
    let n ← c.s.h.prevOf (← c.its x)
    some (.unit, { c with its := upd c.its y (some n) })
  | .deref _ x => do
    let v ← c.s.h.deref (← c.its x)
    some (.val v, c)
  | .write _ x v => do
    let h ← c.s.h.setVal (← c.its x) v
    some (.unit, { c with s := ⟨h, c.s.size⟩ })
  | .same _ x y => do
    let p ← c.its x
    let q ← c.its y
    some (.flag (p == q), c)
  | .size l => do
    let a ← c.lists l
    some (.nat (c.s.sizeOf a), c)
  | .empty l => do
    let a ← c.lists l
    let b ← c.s.h.nextOf a
    some (.flag (b == a), c)
  | .front l => do
    let b ← c.s.h.nextOf (← c.lists l)
    let v ← c.s.h.deref b
    some (.val v, c)
  | .back l => do
    let b ← c.s.h.prevOf (← c.lists l)
    let v ← c.s.h.deref b
    some (.val v, c)
  | .iterate l => do
    let vs ← c.s.h.forward (← c.lists l)
    some (.list vs, c)

/-- Running a program; nothing if it is undefined. -/
def LProg.run : LProg V R → LCS V → Option (R × LCS V)
  | .ret r, c => some (r, c)
  | .look q k, c =>
    match q.run c with
    | some (a, c') => (k a).run c'
    | none => none
  | .call m k, c =>
    match m.run c with
    | .ok (c', n) => (k false n).run c'
    | .exn (c', n) => (k true n).run c'
    | .ub => none

/-! ## Specification

Every list is a sequence of elements, and every element has an identity (C31). A variable with an iterator holds the identity of the element, or
of the list if it is the end. It may be used as long as that element is in the list that it is used with: nothing else is said about it. -/

/-- The lists as sequences, and the variables. -/
structure LAS (V : Type) where
  S : SAbs V
  lists : Nat → Option Nat
  its : Nat → Option Nat

/-- The elements of the list with that name. -/
def LAS.elems (a : LAS V) (l : Nat) : Option (List (Nat × V)) := (a.lists l).bind a.S.abs.lists

/-- What the call means for sequences. -/
def LCall.op (a : LAS V) : LCall V → Option (SOp V)
  | .new _ => some (.base .new)
  | .newFrom _ vs fail => some (.base (.newFrom vs fail))
  | .copyOf _ src fail => (a.lists src).map fun k => .base (.copyOf k fail)
  | .moveOf _ src => (a.lists src).map fun k => .base (.moveOf k)
  | .drop l => (a.lists l).map fun k => .base (.drop k)
  | .pushBack l v fail _ => (a.lists l).map fun k => .base (.pushBack k v fail)
  | .pushFront l v fail _ => (a.lists l).map fun k => .base (.pushFront k v fail)
  | .popBack l => (a.lists l).map fun k => .base (.popBack k)
  | .popFront l => (a.lists l).map fun k => .base (.popFront k)
  | .append l vs fail => (a.lists l).map fun k => .base (.append k vs fail)
  | .insert l x vs fail => do some (.base (.insert (← a.lists l) (← a.its x) vs fail))
  | .eraseOne l x _ => do
    let k ← a.lists l
    let p ← a.its x
    some (.base (.erase k p (headId (fromPos p (a.S.abs.at' k)).tail k)))
  | .erase l x z _ => do some (.base (.erase (← a.lists l) (← a.its x) (← a.its z)))
  | .removeIf l p => (a.lists l).map fun k => .base (.eraseIf k p)
  | .clear l => (a.lists l).map fun k => .base (.clear k)
  | .splice l x o first last => do some (.base (.splice (← a.lists l) (← a.its x) (← a.lists o) (← a.its first) (← a.its last)))
  | .spliceAll l x o => do some (.base (.spliceAll (← a.lists l) (← a.its x) (← a.lists o)))
  | .spliceOne l x o z => do some (.base (.spliceOne (← a.lists l) (← a.its x) (← a.lists o) (← a.its z)))
  | .swap l o => do some (.base (.swap (← a.lists l) (← a.lists o)))
  | .moveAssign l o => do some (.base (.moveAssign (← a.lists l) (← a.lists o)))
  | .assign l vs left fail => (a.lists l).map fun k => .base (.assign k vs left fail)
  | .copyAssign l o left fail => do some (.base (.copyAssign (← a.lists l) (← a.lists o) left fail))
  | .resize l n v fail => (a.lists l).map fun k => .resize k n v fail

/-- The list that the call makes. -/
def LCall.makes : LCall V → Option Nat
  | .new l | .newFrom l _ _ | .copyOf l _ _ | .moveOf l _ => some l
  | _ => none

/-- The variable that the call assigns and the element or end that it then refers to, in the lists `B` after the call: the new element at the end or the
start; the element behind the erased ones. -/
def LCall.result (a : LAS V) (B : Abs V) : LCall V → Option (Nat × Nat)
  | .pushBack l _ _ y => (a.lists l).bind fun k => (B.at' k).getLast?.map fun x => (y, x.1)
  | .pushFront l _ _ y => (a.lists l).bind fun k => (B.at' k).head?.map fun x => (y, x.1)
  | .eraseOne l x y => (a.lists l).bind fun k => (a.its x).map fun p => (y, headId (fromPos p (a.S.abs.at' k)).tail k)
  | .erase _ _ z y => (a.its z).map fun q => (y, q)
  | _ => none

/-- The number that the call returns. -/
def LCall.count (a : LAS V) : LCall V → Nat
  | .removeIf l p => ((a.elems l).getD []).countP fun x => p x.2
  | _ => 0

/-- The meaning of a call: if it throws, the number it returns, and what then is. -/
def LCall.mean (m : LCall V) (a : LAS V) : Option (Bool × Nat × LAS V) :=
  (m.op a).map fun op =>
    let r := a.S.spec op
    (r.2, if r.2 then 0 else m.count a,
      { S := r.1
        lists := match r.2, m.makes with
          | false, some l => upd a.lists l (some a.S.abs.next)
          | _, _ => a.lists
        its := match r.2, m.result a r.1.abs with
          | false, some (y, p) => upd a.its y (some p)
          | _, _ => a.its })

/-- What can be seen. -/
def LLook.mean (a : LAS V) : LLook V → Option (LAns V × LAS V)
  | .first l x => (a.lists l).bind fun k => (a.S.abs.lists k).map fun xs => (.unit, { a with its := upd a.its x (some (headId xs k)) })
  | .last l x => (a.lists l).map fun k => (.unit, { a with its := upd a.its x (some k) })
  | .next l x y => (a.lists l).bind fun k => (a.its x).bind fun p => (a.S.abs.lists k).map fun xs =>
    (.unit, { a with its := upd a.its y (some (headId (fromPos p xs).tail k)) })
  | .prev l x y => (a.lists l).bind fun k => (a.its x).bind fun p => (a.S.abs.lists k).bind fun xs => (before p xs).getLast?.map fun e =>
    (.unit, { a with its := upd a.its y (some e.1) })
  | .deref l x => (a.elems l).bind fun xs => (a.its x).bind fun p => (xs.find? (·.1 = p)).map fun e => (.val e.2, a)
  | .write l x v => (a.lists l).bind fun k => (a.its x).bind fun p => (a.S.abs.lists k).map fun xs =>
    (.unit, { a with S := { a.S with abs := a.S.abs.set k (xs.map fun e => if e.1 = p then (p, v) else e) } })
  | .same _ x y => (a.its x).bind fun p => (a.its y).map fun q => (.flag (decide (p = q)), a)
  | .size l => (a.elems l).map fun xs => (.nat xs.length, a)
  | .empty l => (a.elems l).map fun xs => (.flag xs.isEmpty, a)
  | .front l => (a.elems l).bind fun xs => xs.head?.map fun e => (.val e.2, a)
  | .back l => (a.elems l).bind fun xs => xs.getLast?.map fun e => (.val e.2, a)
  | .iterate l => (a.elems l).map fun xs => (.list (xs.map (·.2)), a)

/-- The meaning of a program. -/
def LProg.mean : LProg V R → LAS V → Option (R × LAS V)
  | .ret r, a => some (r, a)
  | .look q k, a => (q.mean a).bind fun x => (k x.1).mean x.2
  | .call m k, a => (m.mean a).bind fun x => (k x.1 x.2.1).mean x.2.2

/-- What the program has to ensure for a look: that the list exists, and that the iterators refer to elements of it (or are its end where that is enough). The size
is known if the list was not moved from (C58), and elements fit in memory. -/
def LLook.Pre (a : LAS V) : LLook V → Prop
  | .first l _ | .last l _ | .empty l | .iterate l => ∃ xs, a.elems l = some xs
  | .next l x _ | .deref l x | .write l x _ => ∃ xs p, a.elems l = some xs ∧ a.its x = some p ∧ p ∈ ids xs
  | .prev l x _ => ∃ k xs p, a.lists l = some k ∧ a.S.abs.lists k = some xs ∧ a.its x = some p ∧ ValidPos k xs p ∧ before p xs ≠ []
  | .same l x y => ∃ k xs p q, a.lists l = some k ∧ a.S.abs.lists k = some xs ∧ a.its x = some p ∧ a.its y = some q ∧ ValidPos k xs p ∧ ValidPos k xs q
  | .size l => ∃ k xs, a.lists l = some k ∧ a.S.abs.lists k = some xs ∧ a.S.stale k = false ∧ xs.length < 2 ^ 64
  | .front l | .back l => ∃ xs, a.elems l = some xs ∧ xs ≠ []

/-- What the program has to ensure for a call: what C58 asks; an element that is erased is one of the list. -/
def LCall.Pre (a : LAS V) : LCall V → Prop
  | .eraseOne l x _ => ∃ xs p, a.elems l = some xs ∧ a.its x = some p ∧ p ∈ ids xs
  | m => ∃ op, m.op a = some op ∧ a.S.pre op

/-- The program does nothing that it must not, whatever it reads. -/
def LProg.legal : LProg V R → LAS V → Prop
  | .ret _, _ => True
  | .look q k, a => q.Pre a ∧ ∀ x, q.mean a = some x → (k x.1).legal x.2
  | .call m k, a => m.Pre a ∧ ∀ x, m.mean a = some x → (k x.1 x.2.1).legal x.2.2

/-! ## Proof -/

/-- Memory and variables are as described. -/
structure LAgrees (c : LCS V) (a : LAS V) : Prop where
  rel : SRel c.s a.S.abs a.S.stale
  lists : c.lists = a.lists
  its : c.its = a.its

theorem elems_some {a : LAS V} {l : Nat} {xs : List (Nat × V)} (h : a.elems l = some xs) : ∃ k, a.lists l = some k ∧ a.S.abs.lists k = some xs := by
  simpa [LAS.elems, Option.bind_eq_some_iff] using h

theorem deref_node {h : LHeap V} {A : Abs V} (r : Rel h A) {l : Nat} {P Q : List (Nat × V)} {x : Nat × V} (hl : A.lists l = some (P ++ x :: Q)) : h.deref x.1 = some x.2 := by
  simp [LHeap.deref, r.vals hl (show (x.1, x.2) ∈ P ++ x :: Q by simp)]

theorem prevOf_at {h : LHeap V} {A : Abs V} (r : Rel h A) {k p : Nat} {xs : List (Nat × V)} (hl : A.lists k = some xs) (hp : ValidPos k xs p) :
    h.prevOf p = some (lastId k (before p xs)) := by
  have e := (ring_split (xs := before p xs) (ys := fromPos p xs)).1 (by rw [before_from]; exact r.ring hl)
  have h4 := e.2.2.2
  rwa [head_from hp (r.notMem hl)] at h4

theorem lastId_of_getLast {k : Nat} {xs : List (Nat × V)} {e : Nat × V} (h : xs.getLast? = some e) : lastId k xs = e.1 := by
  simp [lastId, ids, List.getLastD_eq_getLast?, h]

/-- A look. -/
theorem LLook.good {c : LCS V} {a : LAS V} (g : LAgrees c a) {q : LLook V} (hp : q.Pre a) :
    ∃ ans a' c', q.mean a = some (ans, a') ∧ q.run c = some (ans, c') ∧ LAgrees c' a' := by
  obtain ⟨r, gl, gi⟩ := g
  cases q with
  | first l x =>
    obtain ⟨xs, hx⟩ := hp
    obtain ⟨k, hk, hl⟩ := elems_some hx
    refine ⟨_, _, { c with its := upd c.its x (some (headId xs k)) }, by simp only [LLook.mean, hk, hl, Option.bind_some, Option.map_some]; rfl, ?_, ?_⟩
    · simp only [LLook.run, gl, hk, Option.bind_eq_bind, Option.bind_some, ring_first (r.rel.ring hl)]
    · exact ⟨r, gl, by rw [gi]⟩
  | last l x =>
    obtain ⟨xs, hx⟩ := hp
    obtain ⟨k, hk, hl⟩ := elems_some hx
    refine ⟨_, _, { c with its := upd c.its x (some k) }, by simp only [LLook.mean, hk, Option.map_some]; rfl, ?_, ?_⟩
    · simp only [LLook.run, gl, hk, Option.bind_eq_bind, Option.bind_some]
    · exact ⟨r, gl, by rw [gi]⟩
  | next l x y =>
    obtain ⟨xs, p, hx, hi, hm⟩ := hp
    obtain ⟨k, hk, hl⟩ := elems_some hx
    obtain ⟨P, v, Q, rfl, hP⟩ := cut_of_mem hm
    refine ⟨_, _, { c with its := upd c.its y (some (headId Q k)) }, by simp only [LLook.mean, hk, hl, hi, Option.bind_some, Option.map_some, from_cut hP, List.tail_cons]; rfl, ?_, ?_⟩
    · simp only [LLook.run, gi, hi, Option.bind_eq_bind, Option.bind_some, nextOf_node (x := (p, v)) r.rel hl]
    · exact ⟨r, gl, by rw [gi]⟩
  | prev l x y =>
    obtain ⟨k, xs, p, hk, hl, hi, hv, hb⟩ := hp
    obtain ⟨e, he⟩ : ∃ e, (before p xs).getLast? = some e := by
      cases h : (before p xs).getLast? with
      | none => exact absurd (List.getLast?_eq_none_iff.1 h) hb
      | some e => exact ⟨e, rfl⟩
    refine ⟨_, _, { c with its := upd c.its y (some e.1) }, by simp only [LLook.mean, hk, hl, hi, he, Option.bind_some, Option.map_some]; rfl, ?_, ?_⟩
    · simp only [LLook.run, gi, hi, Option.bind_eq_bind, Option.bind_some, prevOf_at r.rel hl hv, lastId_of_getLast he]
    · exact ⟨r, gl, by rw [gi]⟩
  | deref l x =>
    obtain ⟨xs, p, hx, hi, hm⟩ := hp
    obtain ⟨k, hk, hl⟩ := elems_some hx
    obtain ⟨P, v, Q, rfl, hP⟩ := cut_of_mem hm
    have hf : (P ++ (p, v) :: Q).find? (fun e => decide (e.1 = p)) = some (p, v) := by
      rw [List.find?_append, List.find?_eq_none.2 (by intro e he; simp only [decide_eq_true_eq]; rintro rfl; exact hP (List.mem_map_of_mem he))]
      simp
    refine ⟨_, _, c, by simp only [LLook.mean, hx, hi, hf, Option.bind_some, Option.map_some]; rfl, ?_, r, gl, gi⟩
    simp only [LLook.run, gi, hi, Option.bind_eq_bind, Option.bind_some, deref_node (x := (p, v)) r.rel hl]
  | write l x v =>
    obtain ⟨xs, p, hx, hi, hm⟩ := hp
    obtain ⟨k, hk, hl⟩ := elems_some hx
    obtain ⟨P, w, Q, rfl, hP⟩ := cut_of_mem hm
    obtain ⟨h', e, r'⟩ := setVal_op r.rel hl v
    have hn : (ids P ++ p :: ids Q).Nodup := by simpa [ids] using r.rel.nodup hl
    have hQ : p ∉ ids Q := (List.nodup_cons.1 (List.nodup_append.1 hn).2.1).1
    have key : ∀ Z : List (Nat × V), p ∉ ids Z → Z.map (fun e => if e.1 = p then (p, v) else e) = Z := by
      intro Z hZ
      conv => rhs; rw [← List.map_id Z]
      refine List.map_congr_left fun e he => ?_
      rw [if_neg (by rintro rfl; exact hZ (List.mem_map_of_mem he))]
      rfl
    have hm' : (P ++ (p, w) :: Q).map (fun e => if e.1 = p then (p, v) else e) = P ++ (p, v) :: Q := by
      rw [List.map_append, List.map_cons, key P hP, key Q hQ, if_pos rfl]
    refine ⟨_, _, { c with s := ⟨h', c.s.size⟩ }, by simp only [LLook.mean, hk, hl, hi, hm', Option.bind_some, Option.map_some]; rfl, ?_, ?_⟩
    · simp only [LLook.run, gi, hi, Option.bind_eq_bind, Option.bind_some, e]
    · exact ⟨r.setSame hl r' (by simp), gl, gi⟩
  | same l x y =>
    obtain ⟨k, xs, p, q, hk, hl, hi, hj, _, _⟩ := hp
    refine ⟨_, _, c, by simp only [LLook.mean, hi, hj, Option.bind_some, Option.map_some]; rfl, ?_, r, gl, gi⟩
    simp only [LLook.run, gi, hi, hj, Option.bind_eq_bind, Option.bind_some]
    rfl
  | size l =>
    obtain ⟨k, xs, hk, hl, hs, hb⟩ := hp
    refine ⟨_, _, c, by simp only [LLook.mean, LAS.elems, hk, hl, Option.bind_some, Option.map_some]; rfl, ?_, r, gl, gi⟩
    simp only [LLook.run, gl, hk, Option.bind_eq_bind, Option.bind_some, r.sizeOf hl hs, Nat.mod_eq_of_lt hb]
  | empty l =>
    obtain ⟨xs, hx⟩ := hp
    obtain ⟨k, hk, hl⟩ := elems_some hx
    have he : (headId xs k == k) = xs.isEmpty := by
      cases xs with
      | nil => simp [headId]
      | cons e xs =>
        have : e.1 ≠ k := fun q => r.rel.notMem hl (by simp [ids, q])
        simpa [headId] using this
    refine ⟨_, _, c, by simp only [LLook.mean, hx, Option.map_some]; rfl, ?_, r, gl, gi⟩
    simp only [LLook.run, gl, hk, Option.bind_eq_bind, Option.bind_some, ring_first (r.rel.ring hl), he]
  | front l =>
    obtain ⟨xs, hx, hne⟩ := hp
    obtain ⟨k, hk, hl⟩ := elems_some hx
    cases xs with
    | nil => exact absurd rfl hne
    | cons e xs =>
    refine ⟨_, _, c, by simp only [LLook.mean, hx, Option.bind_some, List.head?_cons, Option.map_some]; rfl, ?_, r, gl, gi⟩
    simp only [LLook.run, gl, hk, Option.bind_eq_bind, Option.bind_some, ring_first (r.rel.ring hl)]
    rw [show headId (e :: xs) k = e.1 from rfl, deref_node (P := []) (x := e) (Q := xs) r.rel hl]
    rfl
  | back l =>
    obtain ⟨xs, hx, hne⟩ := hp
    obtain ⟨k, hk, hl⟩ := elems_some hx
    rcases List.eq_nil_or_concat xs with rfl | ⟨ys, e, he⟩
    · exact absurd rfl hne
    · rw [List.concat_eq_append] at he
      subst he
      have hlast : (ys ++ [e]).getLast? = some e := by simp
      refine ⟨_, _, c, by simp only [LLook.mean, hx, hlast, Option.bind_some, Option.map_some]; rfl, ?_, r, gl, gi⟩
      simp only [LLook.run, gl, hk, Option.bind_eq_bind, Option.bind_some, ring_last (r.rel.ring hl), lastId_of_getLast hlast,
        deref_node (P := ys) (x := e) (Q := []) r.rel hl]
  | iterate l =>
    obtain ⟨xs, hx⟩ := hp
    obtain ⟨k, hk, hl⟩ := elems_some hx
    refine ⟨_, _, c, by simp only [LLook.mean, hx, Option.map_some]; rfl, ?_, r, gl, gi⟩
    simp only [LLook.run, gl, hk, Option.bind_eq_bind, Option.bind_some, forward_spec r.rel hl]

/-- What is to be shown of a call. -/
def LCall.Good (c : LCS V) (a : LAS V) (m : LCall V) : Prop :=
  ∃ b n a' c', m.mean a = some (b, n, a') ∧ m.run c = Out.of b (c', n) ∧ LAgrees c' a'

/-- A function that returns nothing. -/
theorem LCall.good_plain {c : LCS V} {a : LAS V} (g : LAgrees c a) {m : LCall V} {op : SOp V} (ho : m.op a = some op) (hp : a.S.pre op)
    (hr : m.run c = c.plain (sstep c.s op)) (hm : m.makes = none) (hres : ∀ B, m.result a B = none) (hc : m.count a = 0) : m.Good c a := by
  obtain ⟨s', e, r'⟩ := sstep_refines c.s a.S op g.rel hp
  refine ⟨_, _, _, { c with s := s' }, by simp only [LCall.mean, ho, Option.map_some]; rfl, ?_, ?_⟩
  · rw [hr, e, hc]
    cases (a.S.spec op).2 <;> rfl
  · refine ⟨r', ?_, ?_⟩
    · simp only [hm]
      cases (a.S.spec op).2 <;> exact g.lists
    · simp only [hres]
      cases (a.S.spec op).2 <;> exact g.its

/-- A constructor. -/
theorem LCall.good_made {c : LCS V} {a : LAS V} (g : LAgrees c a) {m : LCall V} {op : SOp V} {l : Nat} (ho : m.op a = some op) (hp : a.S.pre op)
    (hr : m.run c = c.made l (sstep c.s op)) (hm : m.makes = some l) (hres : ∀ B, m.result a B = none) (hc : m.count a = 0) : m.Good c a := by
  obtain ⟨s', e, r'⟩ := sstep_refines c.s a.S op g.rel hp
  have hn : c.s.h.next = a.S.abs.next := g.rel.rel.same.symm
  refine ⟨_, _, _, { s := s', lists := if (a.S.spec op).2 then c.lists else upd c.lists l (some c.s.h.next), its := c.its },
    by simp only [LCall.mean, ho, Option.map_some]; rfl, ?_, ?_⟩
  · rw [hr, e, hc]
    cases (a.S.spec op).2 <;> rfl
  · refine ⟨r', ?_, ?_⟩
    · simp only [hm, hn, g.lists]
      cases (a.S.spec op).2 <;> rfl
    · simp only [hres]
      cases (a.S.spec op).2 <;> exact g.its

/-- A function that returns an iterator or a reference. -/
theorem LCall.good_gives {c : LCS V} {a : LAS V} (g : LAgrees c a) {m : LCall V} {op : SOp V} {y p : Nat} (ho : m.op a = some op) (hp : a.S.pre op)
    (hr : m.run c = c.gives y p (sstep c.s op)) (hm : m.makes = none) (hres : (a.S.spec op).2 = false → m.result a (a.S.spec op).1.abs = some (y, p))
    (hc : m.count a = 0) : m.Good c a := by
  obtain ⟨s', e, r'⟩ := sstep_refines c.s a.S op g.rel hp
  refine ⟨_, _, _, { s := s', lists := c.lists, its := if (a.S.spec op).2 then c.its else upd c.its y (some p) },
    by simp only [LCall.mean, ho, Option.map_some]; rfl, ?_, ?_⟩
  · rw [hr, e, hc]
    cases (a.S.spec op).2 <;> rfl
  · refine ⟨r', ?_, ?_⟩
    · simp only [hm]
      cases (a.S.spec op).2 <;> exact g.lists
    · cases hb : (a.S.spec op).2 with
      | true => exact g.its
      | false => simp only [hres hb, g.its]; rfl

/-- A call. -/
theorem LCall.good {c : LCS V} {a : LAS V} (g : LAgrees c a) {m : LCall V} (hp : m.Pre a) : m.Good c a := by
  have gl := g.lists
  have gi := g.its
  cases m with
  | new l => exact good_made (l := l) g rfl trivial rfl rfl (fun _ => rfl) rfl
  | newFrom l vs fail => exact good_made (l := l) g rfl trivial rfl rfl (fun _ => rfl) rfl
  | copyOf l src fail =>
    obtain ⟨op, ho, hp⟩ := hp
    obtain ⟨k, hk, rfl⟩ := Option.map_eq_some_iff.1 ho
    exact good_made (l := l) g ho hp (by simp only [LCall.run, gl, hk, need]; rfl) rfl (fun _ => rfl) rfl
  | moveOf l src =>
    obtain ⟨op, ho, hp⟩ := hp
    obtain ⟨k, hk, rfl⟩ := Option.map_eq_some_iff.1 ho
    exact good_made (l := l) g ho hp (by simp only [LCall.run, gl, hk, need]; rfl) rfl (fun _ => rfl) rfl
  | drop l | popBack l | popFront l | append l vs fail | clear l | assign l vs left fail | resize l n v fail =>
    obtain ⟨op, ho, hp⟩ := hp
    obtain ⟨k, hk, rfl⟩ := Option.map_eq_some_iff.1 ho
    exact good_plain g ho hp (by simp only [LCall.run, gl, hk, need]; rfl) rfl (fun _ => rfl) rfl
  | insert l x vs fail =>
    obtain ⟨op, ho, hp⟩ := hp
    have ho' := ho
    simp only [LCall.op, Option.bind_eq_bind, Option.bind_eq_some_iff, Option.some.injEq] at ho'
    obtain ⟨k, hk, p, hx, rfl⟩ := ho'
    exact good_plain g ho hp (by simp only [LCall.run, gl, gi, hk, hx, need]; rfl) rfl (fun _ => rfl) rfl
  | spliceAll l x o =>
    obtain ⟨op, ho, hp⟩ := hp
    have ho' := ho
    simp only [LCall.op, Option.bind_eq_bind, Option.bind_eq_some_iff, Option.some.injEq] at ho'
    obtain ⟨k, hk, p, hx, k', hk', rfl⟩ := ho'
    exact good_plain g ho hp (by simp only [LCall.run, gl, gi, hk, hx, hk', need]; rfl) rfl (fun _ => rfl) rfl
  | spliceOne l x o z =>
    obtain ⟨op, ho, hp⟩ := hp
    have ho' := ho
    simp only [LCall.op, Option.bind_eq_bind, Option.bind_eq_some_iff, Option.some.injEq] at ho'
    obtain ⟨k, hk, p, hx, k', hk', q, hz, rfl⟩ := ho'
    exact good_plain g ho hp (by simp only [LCall.run, gl, gi, hk, hx, hk', hz, need]; rfl) rfl (fun _ => rfl) rfl
  | splice l x o i j =>
    obtain ⟨op, ho, hp⟩ := hp
    have ho' := ho
    simp only [LCall.op, Option.bind_eq_bind, Option.bind_eq_some_iff, Option.some.injEq] at ho'
    obtain ⟨k, hk, p, hx, k', hk', q, hz, q', hz', rfl⟩ := ho'
    exact good_plain g ho hp (by simp only [LCall.run, gl, gi, hk, hx, hk', hz, hz', need]; rfl) rfl (fun _ => rfl) rfl
  | swap l o | moveAssign l o | copyAssign l o left fail =>
    obtain ⟨op, ho, hp⟩ := hp
    have ho' := ho
    simp only [LCall.op, Option.bind_eq_bind, Option.bind_eq_some_iff, Option.some.injEq] at ho'
    obtain ⟨k, hk, k', hk', rfl⟩ := ho'
    exact good_plain g ho hp (by simp only [LCall.run, gl, hk, hk', need]; rfl) rfl (fun _ => rfl) rfl
  | pushBack l v fail y =>
    obtain ⟨op, ho, hp⟩ := hp
    obtain ⟨k, hk, rfl⟩ := Option.map_eq_some_iff.1 ho
    obtain ⟨xs, hl⟩ : ∃ xs, a.S.abs.lists k = some xs := hp
    refine good_gives (y := y) (p := c.s.h.next) g ho ⟨xs, hl⟩ (by simp only [LCall.run, gl, hk, need]; rfl) rfl ?_ rfl
    intro hb
    cases fail with
    | true => cases hb
    | false =>
      have hn : a.S.abs.next = c.s.h.next := g.rel.rel.same
      simp [LCall.result, hk, SAbs.spec, SAbs.elems, Abs.spec, Abs.set, Abs.use, Abs.at', hl, hn]
  | pushFront l v fail y =>
    obtain ⟨op, ho, hp⟩ := hp
    obtain ⟨k, hk, rfl⟩ := Option.map_eq_some_iff.1 ho
    obtain ⟨xs, hl⟩ : ∃ xs, a.S.abs.lists k = some xs := hp
    obtain ⟨s', e, r'⟩ := sstep_refines c.s a.S _ g.rel (show a.S.pre (.base (.pushFront k v fail)) from ⟨xs, hl⟩)
    refine good_gives (y := y) (p := a.S.abs.next + 1) g ho ⟨xs, hl⟩ ?_ rfl ?_ rfl
    · simp only [LCall.run, gl, hk, need]
      cases fail with
      | true =>
        have e' : c.s.pushFront k v true = .exn s' := e
        simp only [sstep, e', LCS.plain, LCS.gives]
      | false =>
        have e' : c.s.pushFront k v false = .ok s' := e
        have hy : ((a.S.abs.set k ((a.S.abs.next + 1, v) :: xs)).use 2).lists k = some ((a.S.abs.next + 1, v) :: xs) := by simp [Abs.set, Abs.use]
        simp only [SAbs.spec, SAbs.elems, Abs.spec, Abs.at_of hl, Bool.false_eq_true, if_false] at r'
        have hf := ring_first (r'.rel.ring hy)
        simp only [sstep, e', hf]
        rfl
    · intro hb
      cases fail with
      | true => cases hb
      | false => simp [LCall.result, hk, SAbs.spec, SAbs.elems, Abs.spec, Abs.set, Abs.use, Abs.at', hl]
  | erase l x z y =>
    obtain ⟨op, ho, hp⟩ := hp
    have ho' := ho
    simp only [LCall.op, Option.bind_eq_bind, Option.bind_eq_some_iff, Option.some.injEq] at ho'
    obtain ⟨k, hk, p, hx, q, hz, rfl⟩ := ho'
    exact good_gives (y := y) (p := q) g ho hp (by simp only [LCall.run, gl, gi, hk, hx, hz, need]; rfl) rfl (fun _ => by simp only [LCall.result, hz]; rfl) rfl
  | eraseOne l x y =>
    obtain ⟨xs, p, hx, hi, hm⟩ := hp
    obtain ⟨k, hk, hl⟩ := elems_some hx
    obtain ⟨P, v, Q, rfl, hP⟩ := cut_of_mem hm
    obtain ⟨_, _, o3, _⟩ := one_node (x := (p, v)) (g.rel.rel.nodup hl) (g.rel.rel.notMem hl)
    have ho : (LCall.eraseOne l x y).op a = some (.base (.erase k p (headId Q k))) := by
      simp only [LCall.op, hk, hi, Option.bind_eq_bind, Option.bind_some, Abs.at_of hl, from_cut hP, List.tail_cons]
    have hne : p ≠ k := fun e => g.rel.rel.notMem hl (by rw [← e]; exact hm)
    have hnx : c.s.h.nextOf p = some (headId Q k) := nextOf_node (x := (p, v)) g.rel.rel hl
    refine good_gives (y := y) (p := headId Q k) g ho ⟨⟨_, hl⟩, by rw [Abs.at_of hl]; exact o3⟩ ?_ rfl ?_ rfl
    · simp only [LCall.run, gl, gi, hk, hi, hnx, need, sstep, SHeap.eraseOne, if_neg hne, Option.bind_eq_bind, Option.bind_some]
    · intro _
      simp only [LCall.result, hk, hi, Option.bind_some, Option.map_some, Abs.at_of hl, from_cut hP, List.tail_cons]
  | removeIf l p =>
    obtain ⟨op, ho, hp⟩ := hp
    obtain ⟨k, hk, rfl⟩ := Option.map_eq_some_iff.1 ho
    obtain ⟨xs, hl⟩ : ∃ xs, a.S.abs.lists k = some xs := hp
    obtain ⟨s', e, r'⟩ := eraseIf_sz (p := p) g.rel hl
    refine ⟨_, _, _, { c with s := s' }, by simp only [LCall.mean, ho, Option.map_some]; rfl, ?_, ?_⟩
    · simp only [LCall.run, gl, hk, need, e, LCall.count, LAS.elems, hl, Option.bind_some, Option.getD_some, SAbs.spec, SAbs.elems, Abs.spec]
      rfl
    · exact ⟨r', gl, gi⟩

/-- The memory after a program: every list that the meaning has can be walked in both directions and shows the elements in order, and `size()` is their
number unless the list is one of those about which C58 says nothing. -/
def LShown (c : LCS V) (a : LAS V) : Prop :=
  LShows c.s.h a.S.abs ∧ ∀ k xs, a.S.abs.lists k = some xs → a.S.stale k = false → c.s.sizeOf k = xs.length % 2 ^ 64

theorem LAgrees.shown {c : LCS V} {a : LAS V} (g : LAgrees c a) : LShown c a := ⟨g.rel.rel.shows, fun _ _ hl hs => g.rel.sizeOf hl hs⟩

/-- C105, from any memory and variables. A program that uses iterators as the standard allows runs without undefined behaviour and gives the
result that its meaning for sequences has; memory and variables are again as the meaning says.

Missing from the full claim: the iterator that `insert` returns (`C62_list_insert_violated`), the size of a list that was moved from or whose copy
assignment threw (`C58_moved_from_violated`, `C105_moved_from_violated`), constructions of lists that throw between the first element and the last
(`C31_failed_copy_violated`), and a range that is spliced to the place where it already is (`C31_splice_in_place_violated`). -/
theorem C105_program_partial : ∀ (P : LProg V R) {c : LCS V} {a : LAS V}, LAgrees c a → P.legal a →
    ∃ x a' c', P.mean a = some (x, a') ∧ P.run c = some (x, c') ∧ LAgrees c' a'
  | .ret x, c, a, g, _ => ⟨x, a, c, rfl, rfl, g⟩
  | .look q k, c, a, g, hp => by
    obtain ⟨ans, a1, c1, e1, e2, g1⟩ := LLook.good g hp.1
    obtain ⟨x, a', c', e3, e4, g'⟩ := C105_program_partial (k ans) g1 (hp.2 _ e1)
    exact ⟨x, a', c', by simp only [LProg.mean, e1, Option.bind_some, e3], by simp only [LProg.run, e2, e4], g'⟩
  | .call m k, c, a, g, hp => by
    obtain ⟨b, n, a1, c1, e1, e2, g1⟩ := LCall.good g hp.1
    obtain ⟨x, a', c', e3, e4, g'⟩ := C105_program_partial (k b n) g1 (hp.2 _ e1)
    refine ⟨x, a', c', by simp only [LProg.mean, e1, Option.bind_some, e3], ?_, g'⟩
    cases b <;> simp only [LProg.run, e2, Out.of, e4] <;> simp_all

/-- Nothing exists. -/
def LCS.start (V : Type) : LCS V := ⟨SHeap.start V, fun _ => none, fun _ => none⟩
/-- Nothing exists. -/
def LAS.start (V : Type) : LAS V := ⟨SAbs.start V, fun _ => none, fun _ => none⟩

theorem agrees_start (V : Type) : LAgrees (LCS.start V) (LAS.start V) := ⟨⟨rel_start V, fun hl => by cases hl⟩, rfl, rfl⟩

/-- C105, programs that start with nothing: the result is the one of the meaning, and afterwards every list shows, forwards and backwards, the elements
that it has by the meaning. Missing: see `C105_program_partial`. -/
theorem C105_list_program_partial (P : LProg V R) (hp : P.legal (LAS.start V)) :
    ∃ x a c, P.mean (LAS.start V) = some (x, a) ∧ P.run (LCS.start V) = some (x, c) ∧ LShown c a := by
  obtain ⟨x, a, c, e1, e2, g⟩ := C105_program_partial P (agrees_start V) hp
  exact ⟨x, a, c, e1, e2, g.shown⟩

/-- C105: the identities by which the meaning describes iterators are identities. In whatever state a program can be, no two elements, of the same or of
different lists, have the same one, none is that of a list, and each is the address at which the element is. -/
theorem C105_identities {c : LCS V} {a : LAS V} (g : LAgrees c a) {k k' i : Nat} {xs ys : List (Nat × V)} {v : V} (hk : a.S.abs.lists k = some xs)
    (hk' : a.S.abs.lists k' = some ys) (hi : (i, v) ∈ xs) :
    c.s.h.deref i = some v ∧ (ids xs).Nodup ∧ i ≠ k' ∧ (i ∈ ids ys → k = k') := by
  have hm : i ∈ ids xs := List.mem_map_of_mem hi
  exact ⟨by simp [LHeap.deref, g.rel.rel.vals hk hi], g.rel.rel.nodup hk, g.rel.rel.sentNe hk hk' hm, fun h => g.rel.rel.apart hk hk' hm h⟩

/-- The elements that a call erases or assigns to; `resize` erases those that are too many. -/
def SOp.ends (A : Abs V) (x : Nat × V) : SOp V → Prop
  | .base op => op.ends A x
  | .resize l n _ _ => x ∈ (A.at' l).drop n

theorem SAbs.holds_spec {S : SAbs V} {x : Nat × V} (hf : S.abs.lists S.abs.next = none) (h : S.abs.Holds x) (op : SOp V) (he : ¬ op.ends S.abs x) :
    (S.spec op).1.abs.Holds x := by
  cases op with
  | base op =>
    cases op with
    | newFrom vs fail =>
      simp only [SAbs.spec, SAbs.elems]
      split
      · exact h
      · exact Abs.holds_spec hf h (.newFrom vs fail) he
    | insert l pos vs fail =>
      simp only [SAbs.spec, SAbs.elems]
      split
      · exact h
      · exact Abs.holds_spec hf h (.insert l pos vs fail) he
    | _ => exact Abs.holds_spec hf h _ he
  | resize l n v fail =>
    simp only [SAbs.spec, SAbs.elems]
    split
    · refine Abs.holds_set h fun hx => ?_
      rcases List.mem_append.1 ((List.take_append_drop n (S.abs.at' l)).symm ▸ hx) with q | q
      · exact q
      · exact absurd q he
    · exact Abs.holds_spec hf h (.append l _ fail) (fun q => q)

/-- The variable that a call assigns. -/
def LCall.sets : LCall V → Option Nat
  | .pushBack _ _ _ y | .pushFront _ _ _ y | .eraseOne _ _ y | .erase _ _ _ y => some y
  | _ => none

theorem LCall.result_sets {a : LAS V} {B : Abs V} {m : LCall V} {z p : Nat} (h : m.result a B = some (z, p)) : m.sets = some z := by
  cases m <;> simp only [LCall.result] at h <;> try cases h
  case pushBack | pushFront =>
    obtain ⟨k, _, h⟩ := Option.bind_eq_some_iff.1 h
    obtain ⟨e, _, h⟩ := Option.map_eq_some_iff.1 h
    simp only [Prod.mk.injEq] at h
    simp [LCall.sets, h.1]
  case eraseOne =>
    obtain ⟨k, _, h⟩ := Option.bind_eq_some_iff.1 h
    obtain ⟨e, _, h⟩ := Option.map_eq_some_iff.1 h
    simp only [Prod.mk.injEq] at h
    simp [LCall.sets, h.1]
  case erase =>
    obtain ⟨e, _, h⟩ := Option.map_eq_some_iff.1 h
    simp only [Prod.mk.injEq] at h
    simp [LCall.sets, h.1]

/-- C105: iterators stay valid. If a variable holds an iterator of an element, and a call (on whatever lists, throwing or not) neither assigns the variable
nor erases or assigns to the element, then afterwards the variable holds an iterator of the same element, which has the same value and is in
exactly one list — for a splice, a swap or a move perhaps another one. -/
theorem C105_iterator_kept {c : LCS V} {a : LAS V} (g : LAgrees c a) {m : LCall V} (hp : m.Pre a) {op : SOp V} (ho : m.op a = some op) {x p : Nat} {v : V}
    (hx : c.its x = some p) (hv : a.S.abs.Holds (p, v)) (he : ¬ op.ends a.S.abs (p, v)) (hs : m.sets ≠ some x) :
    ∃ b n a' c', m.mean a = some (b, n, a') ∧ m.run c = Out.of b (c', n) ∧ c'.its x = some p ∧ c'.s.h.deref p = some v ∧
      ∃! k, ∃ xs, a'.S.abs.lists k = some xs ∧ p ∈ ids xs := by
  obtain ⟨b, n, a', c', e1, e2, g'⟩ := LCall.good g hp
  have hS : a'.S = (a.S.spec op).1 ∧ a'.its x = some p := by
    simp only [LCall.mean, ho, Option.map_some, Option.some.injEq, Prod.mk.injEq] at e1
    obtain ⟨_, _, rfl⟩ := e1
    refine ⟨rfl, ?_⟩
    have hx' : a.its x = some p := g.its ▸ hx
    show (match (motive := Bool → Option (Nat × Nat) → Nat → Option Nat) (a.S.spec op).2, m.result a (a.S.spec op).1.abs with
      | false, some (y, p) => upd a.its y (some p)
      | _, _ => a.its) x = some p
    cases (a.S.spec op).2 with
    | true => exact hx'
    | false =>
      cases hr : m.result a (a.S.spec op).1.abs with
      | none => exact hx'
      | some w =>
        have hz : x ≠ w.1 := by
          rintro rfl
          exact hs (LCall.result_sets hr)
        show upd a.its w.1 (some w.2) x = some p
        rw [upd_other _ _ hz]; exact hx'
  obtain ⟨k, xs, hk, hm⟩ := SAbs.holds_spec g.rel.rel.next_none hv op he
  rw [← hS.1] at hk
  refine ⟨b, n, a', c', e1, e2, by rw [g'.its]; exact hS.2, (C105_identities g' hk hk hm).1, k, ⟨xs, hk, List.mem_map_of_mem hm⟩, ?_⟩
  rintro k' ⟨ys, hk', hy⟩
  exact ((C105_identities g' hk hk' hm).2.2.2 hy).symm

/-! ## Examples -/

instance (A : Abs V) (l : Nat) : Decidable (A.Has l) := decidable_of_iff ((A.lists l).isSome = true) (by simp [Abs.Has, Option.isSome_iff_exists])
instance (l : Nat) (xs : List (Nat × V)) (p : Nat) : Decidable (ValidPos l xs p) := inferInstanceAs (Decidable (p = l ∨ p ∈ ids xs))
instance (l : Nat) (xs : List (Nat × V)) (p q : Nat) : Decidable (ValidRange l xs p q) := inferInstanceAs (Decidable (_ ∧ _))
instance (A : Abs V) : (op : LOp V) → Decidable (A.pre op) := by
  intro op; cases op <;> dsimp only [Abs.pre] <;> infer_instance
instance (S : SAbs V) : (op : SOp V) → Decidable (S.pre op) := by
  intro op
  cases op with
  | resize => dsimp only [SAbs.pre]; infer_instance
  | base op => cases op <;> dsimp only [SAbs.pre] <;> infer_instance

/-- Deciding the precondition of a look, for the examples. -/
def LLook.legal (a : LAS V) : LLook V → Bool
  | .first l _ | .last l _ | .empty l | .iterate l => (a.elems l).isSome
  | .next l x _ | .deref l x | .write l x _ => match a.elems l, a.its x with
    | some xs, some p => decide (p ∈ ids xs)
    | _, _ => false
  | .prev l x _ => match a.lists l, a.its x with
    | some k, some p => match a.S.abs.lists k with
      | some xs => decide (ValidPos k xs p) && !(before p xs).isEmpty
      | none => false
    | _, _ => false
  | .same l x y => match a.lists l, a.its x, a.its y with
    | some k, some p, some q => match a.S.abs.lists k with
      | some xs => decide (ValidPos k xs p) && decide (ValidPos k xs q)
      | none => false
    | _, _, _ => false
  | .size l => match a.lists l with
    | some k => match a.S.abs.lists k with
      | some xs => !a.S.stale k && decide (xs.length < 2 ^ 64)
      | none => false
    | none => false
  | .front l | .back l => match a.elems l with
    | some xs => !xs.isEmpty
    | none => false

theorem LLook.pre_of_legal {a : LAS V} {q : LLook V} (h : q.legal a = true) : q.Pre a := by
  cases q with
  | first | last | empty | iterate => exact Option.isSome_iff_exists.1 h
  | next | deref | write =>
    simp only [LLook.legal] at h
    split at h
    · next xs p e1 e2 => exact ⟨xs, p, e1, e2, of_decide_eq_true h⟩
    · cases h
  | prev =>
    simp only [LLook.legal] at h
    split at h
    · next k p e1 e2 =>
      split at h
      · next xs e3 =>
        rw [Bool.and_eq_true] at h
        exact ⟨k, xs, p, e1, e3, e2, of_decide_eq_true h.1, by simpa using h.2⟩
      · cases h
    · cases h
  | same =>
    simp only [LLook.legal] at h
    split at h
    · next k p q e1 e2 e3 =>
      split at h
      · next xs e4 =>
        rw [Bool.and_eq_true] at h
        exact ⟨k, xs, p, q, e1, e4, e2, e3, of_decide_eq_true h.1, of_decide_eq_true h.2⟩
      · cases h
    · cases h
  | size =>
    simp only [LLook.legal] at h
    split at h
    · next k e1 =>
      split at h
      · next xs e2 =>
        rw [Bool.and_eq_true] at h
        exact ⟨k, xs, e1, e2, by simpa using h.1, of_decide_eq_true h.2⟩
      · cases h
    · cases h
  | front | back =>
    simp only [LLook.legal] at h
    split at h
    · next xs e1 => exact ⟨xs, e1, by simpa using h⟩
    · cases h

/-- Deciding the precondition of a call, for the examples; the range of one element that `erase` removes is a range if the element is there. -/
def LCall.legal (a : LAS V) : LCall V → Bool
  | .eraseOne l x _ => match a.elems l, a.its x with
    | some xs, some p => decide (p ∈ ids xs)
    | _, _ => false
  | m => match m.op a with
    | some op => decide (a.S.pre op)
    | none => false

theorem LCall.pre_of_legal {a : LAS V} {m : LCall V} (h : m.legal a = true) : m.Pre a := by
  cases m with
  | eraseOne =>
    simp only [LCall.legal] at h
    split at h
    · next xs p e1 e2 => exact ⟨xs, p, e1, e2, of_decide_eq_true h⟩
    · cases h
  | _ =>
    simp only [LCall.legal] at h
    split at h
    · next op e => exact ⟨op, e, of_decide_eq_true h⟩
    · cases h

/-- Deciding if a program is legal, for the examples. -/
def LProg.ok : LProg V R → LAS V → Bool
  | .ret _, _ => true
  | .look q k, a => q.legal a && match q.mean a with
    | some x => (k x.1).ok x.2
    | none => true
  | .call m k, a => m.legal a && match m.mean a with
    | some x => (k x.1 x.2.1).ok x.2.2
    | none => true

theorem LProg.legal_of_ok : ∀ {P : LProg V R} {a : LAS V}, P.ok a = true → P.legal a
  | .ret _, _, _ => trivial
  | .look q k, a, h => by
    simp only [LProg.ok, Bool.and_eq_true] at h
    refine ⟨LLook.pre_of_legal h.1, fun x hx => ?_⟩
    rw [hx] at h
    exact LProg.legal_of_ok h.2
  | .call m k, a, h => by
    simp only [LProg.ok, Bool.and_eq_true] at h
    refine ⟨LCall.pre_of_legal h.1, fun x hx => ?_⟩
    rw [hx] at h
    exact LProg.legal_of_ok h.2

/-- Two lists; the second element of the first one is spliced to the start of the second list and is reached by the iterator that was made before; an element
in front of it that throws, one that does not, a write, the element behind is erased, and `remove_if`. -/
def exLists : LProg Nat (List (LAns Nat)) :=
  .call (.newFrom 0 [1, 2, 3] none) fun _ _ => .call (.newFrom 1 [10, 20, 30] none) fun _ _ =>
  .look (.first 0 0) fun _ => .look (.next 0 0 1) fun _ => .look (.first 1 2) fun _ =>
  .call (.spliceOne 1 2 0 1) fun _ _ => .look (.deref 1 1) fun a =>
  .call (.pushFront 1 7 true 3) fun t _ => .call (.pushFront 1 8 false 3) fun _ _ =>
  .look (.write 1 1 (if t then 5 else 6)) fun _ => .call (.eraseOne 1 2 4) fun _ _ => .look (.deref 1 4) fun b =>
  .look (.prev 1 4 5) fun _ => .look (.same 1 5 1) fun s =>
  .call (.removeIf 1 fun v => v % 2 == 0) fun _ n => .look (.iterate 0) fun d => .look (.iterate 1) fun e => .look (.size 1) fun z =>
  .ret [a, b, s, .nat n, d, e, z]

/-- `exLists` is legal; what it gives. -/
example : exLists.legal (LAS.start Nat) ∧
    (exLists.run (LCS.start Nat)).map (·.1) = some [.val 2, .val 20, .flag true, .nat 3, .list [1, 3], .list [5], .nat 1] :=
  ⟨LProg.legal_of_ok (by decide +kernel), by decide +kernel⟩

/-- A list of two, and an iterator of the first element. -/
def exFirst : LProg Nat Unit := .call (.newFrom 0 [1, 2] none) fun _ _ => .look (.first 0 0) fun _ => .ret ()

/-- `C105_iterator_kept` applies to an iterator of a list from which another one is made by move construction. -/
example : ∃ (c : LCS Nat) (a : LAS Nat), LAgrees c a ∧ (LCall.moveOf 1 0).Pre a ∧ (LCall.moveOf 1 0).op a = some (.base (.moveOf 0)) ∧ c.its 0 = some 1 ∧
    a.S.abs.Holds (1, 1) ∧ ¬ (SOp.base (.moveOf 0)).ends a.S.abs (1, 1) ∧ (LCall.moveOf 1 0 : LCall Nat).sets ≠ some 0 := by
  obtain ⟨x, a, c, e1, _, g⟩ := C105_program_partial exFirst (agrees_start Nat) (LProg.legal_of_ok (by decide +kernel))
  simp only [exFirst, LProg.mean, LCall.mean, LCall.op, LLook.mean, LAS.start, SAbs.start, Abs.start] at e1
  cases e1
  exact ⟨c, _, g, LCall.pre_of_legal (by decide +kernel), rfl, by rw [g.its]; decide +kernel, ⟨0, [(1, 1), (2, 2)], rfl, by simp⟩, fun h => h, by decide⟩

/-- A list is moved from and asked for its size. -/
def exMoved : LProg Nat (LAns Nat × LAns Nat) :=
  .call (.newFrom 0 [1, 2] none) fun _ _ => .call (.moveOf 1 0) fun _ _ => .look (.empty 0) fun e => .look (.size 0) fun n => .ret (e, n)

/-- C105 is violated by lists that were moved from: the list is empty, but `size()` is two, where the standard has zero for a list that is empty. -/
theorem C105_moved_from_violated : (exMoved.mean (LAS.start Nat)).map (·.1) = some (.flag true, .nat 0) ∧
    (exMoved.run (LCS.start Nat)).map (·.1) = some (.flag true, .nat 2) := ⟨by decide +kernel, by decide +kernel⟩

end Verif.Lists
