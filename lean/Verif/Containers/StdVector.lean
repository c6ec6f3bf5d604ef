import Verif.Containers.Observe
import Verif.Containers.Stable
import Verif.Containers.Returned
import Verif.Containers.VectorProps

/-!
# Programs that use a vector in the style of the standard library, with iterators (C104)

A program keeps iterators of one vector in variables, passes them and elements of the vector to its functions, and continues with what it
gets back. It may do with an iterator what the standard permits: use it until an operation invalidates it. The model of an iterator is an
address, so the proof is about what becomes of addresses when storage is reallocated and elements are shifted.
-/

namespace Verif.Containers

open Verif Impl Lawful Verif.Bounded

variable {V O R : Type}

/-! ## Model -/

/-- An argument of type `T const &`: an object that is not in the vector, or the element to which the iterator in a variable refers. -/
inductive Val (V : Type) where
  | fresh (v : V)
  | elem (x : Nat)

/-- What the program can do without changing the number of elements. `x` and `y` are variables with iterators. -/
inductive Look (V : Type) where
  /-- `x = v.begin()` -/
  | first (x : Nat)
  /-- `x = v.end()` -/
  | last (x : Nat)
  /-- `y = x + d` -/
  | move (x : Nat) (d : Int) (y : Nat)
  /-- `y - x` -/
  | diff (x y : Nat)
  /-- `*x` -/
  | deref (x : Nat)
  /-- `*x = v` -/
  | write (x : Nat) (v : V)
  | index (i : Nat)
  | put (i : Nat) (v : V)
  | at' (i : Arg) (x : Int)
  | front
  | back
  | size
  | capacity
  | empty
  /-- all elements by a range-based `for` -/
  | iterate

/-- What the program gets from that. -/
inductive Ans (V : Type) where
  | unit
  | flag (b : Bool)
  | nat (n : Nat)
  | int (i : Int)
  | val (v : V)
  | opt (v : Option V)
  | list (vs : List V)
  deriving DecidableEq

/-- The other functions. `t`, `first`, `thr` say which constructions throw, `al` and `f` which allocations fail. -/
inductive Call (V : Type) where
  | push (c : Val V) (t : Bool) (al : Nat → Bool)
  | emplaceBack (c : Val V) (t : Bool) (al : Nat → Bool)
  /-- `insert(x, c)` -/
  | insert (x : Nat) (c : Val V) (t : Bool) (al : Nat → Bool)
  /-- `emplace(x, c)` with an lvalue -/
  | emplace (x : Nat) (c : Val V) (t : Bool) (al : Nat → Bool)
  /-- `insert(x, n, c)` -/
  | insertCount (x n : Nat) (c : Val V) (first : Bool) (thr : Nat → Bool) (al : Nat → Bool)
  /-- `insert(x, first, last)` or `insert(x, {...})` with elements of another range -/
  | insertRange (x : Nat) (src : List (Item V)) (al : Nat → Bool)
  | erase (x : Nat)
  | eraseRange (x y : Nat)
  /-- `resize(n, c)` -/
  | resizeValue (n : Nat) (c : Val V) (thr : Nat → Bool) (al : Nat → Bool)
  | reserve (n : Nat) (f : Bool)
  | shrink (al : Nat → Bool)
  /-- `pop_back`, `clear`, `resize(n)`, `assign`, assignment of an initializer list, `erase_if` -/
  | plain (u : GOp V)

/-- A program. `call m y k`: the iterator or the address of the element that `m` returns goes to the variable `y`; the program learns if `m`
threw. -/
inductive StdProg (V R : Type) where
  | ret (r : R)
  | look (l : Look V) (k : Ans V → StdProg V R)
  | call (m : Call V) (y : Nat) (k : Bool → StdProg V R)

/-- How a call ends; what it returns is an address or nothing. -/
inductive Done (S : Type) where
  | ok (s : S) (a : Option Addr)
  | exn (s : S)
  | ub

/-- The end of a function that returns an address. -/
def Gives.done {S : Type} : Gives S → Done S
  | .ok s a => .ok s (some a)
  | .exn s => .exn s
  | .ub => .ub

/-- The end of a function that returns nothing (or something that the program does not use). -/
def doneOf {S : Type} : Out S → Done S
  | .ok s => .ok s none
  | .exn s => .exn s
  | .ub => .ub

/-- The state of the program: memory, the vector, the variables. -/
structure CS (V O : Type) where
  h : Heap V
  o : O
  its : Nat → Option Addr

/-- The variable `x` as a position, `impl_iterator(x)` (std/vector.cpp 333-335): an address in the current storage. -/
def CS.at_ (I : Impl V O) (c : CS V O) (x : Nat) : Option Nat :=
  match c.its x with
  | some a => if a.block = I.ptr c.o then some a.slot else none
  | none => none

/-- The variable `x` is assigned. -/
def CS.set (c : CS V O) (x : Nat) (a : Addr) : CS V O := { c with its := fun z => if z = x then some a else c.its z }

/-- What is behind a reference, for the functions of the implementation. A reference through an iterator into other storage than the current one has
nothing behind it. -/
def Val.ref (I : Impl V O) (c : CS V O) (t : Bool) : Val V → Option (PSrc V)
  | .fresh v => some (.lit v t)
  | .elem x => (c.at_ I x).map fun k => .self k t

/-- std/vector.cpp 336-339, std/inplace_vector.cpp `object_is_in_storage`: `data() <= ptr` and `ptr < data() + size()`. -/
def Impl.inStorage (I : Impl V O) (o : O) : PSrc V → Bool
  | .lit _ _ => false
  | .self k _ => decide (0 ≤ k) && decide (k < I.size o)

/-- `insert(position, T(value))`: the copy is made first, then moved into the vector (std/vector.cpp 246, 269-275). -/
def Impl.insertCopy (I : Impl V O) (h : Heap V) (o : O) (k n : Nat) (s : PSrc V) (thr : Nat → Bool) (al : Nat → Bool) : Gives (Heap V × O) :=
  match s.eval (I.mem h o) with
  | none => .ub
  | some (v, t) => if t then .exn (h, o) else I.insertRet h o k ((List.range n).map fun i => ⟨v, thr i⟩) al

/-- The functions. std/vector.cpp 219-306, std/inplace_vector.cpp 192-343. A vector that cannot grow is an `inplace_vector`: `reserve` only compares, and
`shrink_to_fit` does nothing. -/
def Call.run (I : Impl V O) (mn : Nat) (c : CS V O) : Call V → Done (Heap V × O)
  | .push v t al =>
    match v.ref I c t with
    | none => .ub
    | some s => doneOf (I.pushBack c.h c.o s al)
  | .emplaceBack v t al =>
    match v.ref I c t with
    | none => .ub
    | some s => (I.pushRet c.h c.o s al).done
  | .insert x v t al =>
    match c.at_ I x, v.ref I c t with
    | some k, some s =>
      if I.inStorage c.o s then (I.insertCopy c.h c.o k 1 s (fun _ => false) al).done
      else
        match s with
        | .lit w t => (I.insertRet c.h c.o k [⟨w, t⟩] al).done
        | .self _ _ => .ub
    | _, _ => .ub
  | .emplace x v t al =>
    match c.at_ I x, v.ref I c t with
    | some k, some s => (I.insertCopy c.h c.o k 1 s (fun _ => false) al).done
    | _, _ => .ub
  | .insertCount x n v first thr al =>
    match c.at_ I x, v.ref I c first with
    | some k, some s =>
      if I.inStorage c.o s then (I.insertCopy c.h c.o k n s thr al).done
      else
        match s with
        | .lit w _ => (I.insertRet c.h c.o k ((List.range n).map fun i => ⟨w, thr i⟩) al).done
        | .self _ _ => .ub
    | _, _ => .ub
  | .insertRange x src al =>
    match c.at_ I x with
    | some k => (I.insertRet c.h c.o k src al).done
    | none => .ub
  | .erase x =>
    match c.at_ I x with
    | some k => (I.eraseRet c.h c.o k (k + 1)).done
    | none => .ub
  | .eraseRange x y =>
    match c.at_ I x, c.at_ I y with
    | some k, some j => (I.eraseRet c.h c.o k j).done
    | _, _ => .ub
  | .resizeValue n v thr al =>
    match v with
    | .fresh w => doneOf (I.resize c.h c.o n (fun i => ⟨w, thr i⟩) al)
    | .elem x =>
      match c.at_ I x with
      | some j => doneOf (I.resizeFrom c.h c.o n j thr al)
      | none => .ub
  | .reserve n f =>
    if I.mx < n then .exn (c.h, c.o)
    else if I.reservable then doneOf (I.reserve c.h c.o n f)
    else .ok (c.h, c.o) none
  | .shrink al => if I.reservable then doneOf (I.shrinkToFit mn c.h c.o al) else .ok (c.h, c.o) none
  | .plain u => doneOf (I.step mn c.h c.o u)

/-- std/vector.cpp 143-237 and uses of iterators, which are pointers. -/
def Look.run (I : Impl V O) (W : Nat) (c : CS V O) : Look V → Option (Ans V × CS V O)
  | .first x => some (.unit, c.set x (I.addr c.o 0))
  | .last x => some (.unit, c.set x (I.addr c.o (I.size c.o)))
  | .move x d y =>
    match c.at_ I x with
    | none => none
    | some k => if 0 ≤ (k : Int) + d ∧ (k : Int) + d ≤ (I.mem c.h c.o).1 then some (.unit, c.set y (I.addr c.o ((k : Int) + d).toNat)) else none
  | .diff x y =>
    match c.at_ I x, c.at_ I y with
    | some k, some j => some (.int ((j : Int) - k), c)
    | _, _ => none
  | .deref x =>
    match c.its x with
    | none => none
    | some a => (I.deref c.h c.o a).map fun v => (.val v, c)
  | .write x v =>
    match c.at_ I x with
    | none => none
    | some k => (I.assignAt c.h c.o k v).map fun s => (.unit, { c with h := s.1, o := s.2 })
  | .index i => (I.index c.h c.o i).map fun v => (.val v, c)
  | .put i v => (I.assignAt c.h c.o i v).map fun s => (.unit, { c with h := s.1, o := s.2 })
  | .at' i _ =>
    match I.at' W c.h c.o i with
    | some (.ok v) => some (.opt (some v), c)
    | some .exn => some (.opt none, c)
    | _ => none
  | .front => (I.front c.h c.o).map fun v => (.val v, c)
  | .back => (I.back c.h c.o).map fun v => (.val v, c)
  | .size => some (.nat (I.size c.o), c)
  | .capacity => (I.capacity c.o).map fun n => (.nat n, c)
  | .empty => some (.flag (I.isEmpty c.o), c)
  | .iterate => (readFrom (I.mem c.h c.o).1 (I.mem c.h c.o).2 0 (I.size c.o)).map fun vs => (.list vs, c)

/-- Running a program; nothing if it is undefined. If a call throws, the variable for its result keeps what it had. -/
def StdProg.run (I : Impl V O) (W mn : Nat) : StdProg V R → CS V O → Option (R × CS V O)
  | .ret r, c => some (r, c)
  | .look l k, c =>
    match l.run I W c with
    | some (a, c') => (k a).run I W mn c'
    | none => none
  | .call m y k, c =>
    match m.run I mn c with
    | .ok s none => (k false).run I W mn { c with h := s.1, o := s.2 }
    | .ok s (some a) => (k false).run I W mn (CS.set { c with h := s.1, o := s.2 } y a)
    | .exn s => (k true).run I W mn { c with h := s.1, o := s.2 }
    | .ub => none

/-! ## Specification

A sequence, a capacity, and for every variable an index or that it must not be used. -/

/-- The vector and the variables as the standard describes them. -/
structure AS (V : Type) where
  s : SV V
  pos : Nat → Option Nat

/-- The value of an argument before the call. -/
def Val.now (a : AS V) : Val V → Option V
  | .fresh v => some v
  | .elem x => (a.pos x).bind fun k => a.s.1[k]?

/-- What the call means for a sequence; the arguments are values and positions. -/
def Call.op (a : AS V) : Call V → Option (GOp V)
  | .push c t al | .emplaceBack c t al => (c.now a).map fun v => .push (.lit v t) al
  | .insert x c t al | .emplace x c t al => (a.pos x).bind fun p => (c.now a).map fun v => .insert p [⟨v, t⟩] al
  | .insertCount x n c _ thr al => (a.pos x).bind fun p => (c.now a).map fun v => .insert p ((List.range n).map fun i => ⟨v, thr i⟩) al
  | .insertRange x src al => (a.pos x).map fun p => .insert p src al
  | .erase x => (a.pos x).map fun p => .erase p (p + 1)
  | .eraseRange x y => (a.pos x).bind fun p => (a.pos y).map fun r => .erase p r
  | .resizeValue n c thr al => (c.now a).map fun v => .resize n (fun i => ⟨v, thr i⟩) al
  | .reserve n f => some (.reserve n f)
  | .shrink al => some (.shrink al)
  | .plain u => some u

/-- The call throws before anything else: the copy of an element of the vector, of which more copies are to be made, throws; or more is reserved than
there can be. -/
def Call.early (mx : Nat) : Call V → Bool
  | .insertCount _ _ (.elem _) first _ _ => first
  | .reserve n _ => decide (mx < n)
  | _ => false

/-- The index of the element that the call returns an iterator or a reference to. -/
def Call.gives (a : AS V) : Call V → Option Nat
  | .emplaceBack _ _ _ => some a.s.1.length
  | .insert x _ _ _ | .emplace x _ _ _ | .insertCount x _ _ _ _ _ | .insertRange x _ _ | .erase x | .eraseRange x _ => a.pos x
  | _ => none

/-- What the standard says about an iterator to index `p` after a call: if the call threw and has no effect then, it is as good as before; otherwise it
is valid if there was no reallocation and it refers to an element before the place of the change. -/
def GOp.valid (s : SV V) (u : GOp V) (thrown : Bool) (p : Nat) : Bool :=
  (thrown && u.strong) || (!u.shrinks && decide (u.needs s.1 ≤ s.2) && decide (p < u.keeps s.1))

/-- The meaning of a call whose result goes to `y`, and if it throws. -/
def Call.mean (q : Cfg) (m : Call V) (y : Nat) (a : AS V) : Option (Bool × AS V) :=
  (m.op a).map fun u =>
    if m.early q.mx then (true, a)
    else ((u.spec q a.s).2, ⟨(u.spec q a.s).1, fun z =>
      if z = y ∧ (u.spec q a.s).2 = false ∧ (m.gives a).isSome then m.gives a else (a.pos z).filter (u.valid a.s (u.spec q a.s).2)⟩)

/-- A variable gets a position. -/
def AS.set (a : AS V) (x p : Nat) : AS V := { a with pos := fun z => if z = x then some p else a.pos z }

/-- What can be seen. -/
def Look.mean (a : AS V) : Look V → Option (Ans V × AS V)
  | .first x => some (.unit, a.set x 0)
  | .last x => some (.unit, a.set x a.s.1.length)
  | .move x d y => (a.pos x).map fun (k : Nat) => (.unit, a.set y ((k : Int) + d).toNat)
  | .diff x y => (a.pos x).bind fun (k : Nat) => (a.pos y).map fun (j : Nat) => (.int ((j : Int) - k), a)
  | .deref x => (a.pos x).bind fun k => a.s.1[k]?.map fun v => (.val v, a)
  | .write x v => (a.pos x).map fun k => (.unit, { a with s := (a.s.1.set k v, a.s.2) })
  | .index i => a.s.1[i]?.map fun v => (.val v, a)
  | .put i v => some (.unit, { a with s := (a.s.1.set i v, a.s.2) })
  | .at' _ x => some (.opt (if 0 ≤ x then a.s.1[x.toNat]? else none), a)
  | .front => a.s.1.head?.map fun v => (.val v, a)
  | .back => a.s.1.getLast?.map fun v => (.val v, a)
  | .size => some (.nat a.s.1.length, a)
  | .capacity => some (.nat a.s.2, a)
  | .empty => some (.flag a.s.1.isEmpty, a)
  | .iterate => some (.list a.s.1, a)

/-- The meaning of a program. -/
def StdProg.mean (q : Cfg) : StdProg V R → AS V → Option (R × AS V)
  | .ret r, a => some (r, a)
  | .look l k, a => (l.mean a).bind fun x => (k x.1).mean q x.2
  | .call m y k, a => (m.mean q y a).bind fun x => (k x.1).mean q x.2

/-- What the program has to ensure for a look: valid iterators, elements that exist. -/
def Look.Pre (W : Nat) (q : Cfg) (a : AS V) : Look V → Prop
  | .first _ | .last _ | .size | .capacity | .empty | .iterate => True
  | .move x d _ => ∃ k, a.pos x = some k ∧ 0 ≤ (k : Int) + d ∧ (k : Int) + d ≤ a.s.1.length
  | .diff x y => (a.pos x).isSome ∧ (a.pos y).isSome
  | .deref x | .write x _ => ∃ k, a.pos x = some k ∧ k < a.s.1.length
  | .index i | .put i _ => i < a.s.1.length
  | .at' i x => ArgHolds W i x ∧ 0 < q.mx ∧ i.rng.lo < q.mx ∧ 0 ≤ i.rng.hi
  | .front | .back => a.s.1 ≠ []

/-- The preconditions of the operation `u` that the call is. They include those of C25 to C28, which the standard does not have. There is none for
`reserve` and `shrink_to_fit`. -/
def Call.Asks (q : Cfg) (a : AS V) (m : Call V) (u : GOp V) : Prop :=
  match m with
  | .reserve _ _ | .shrink _ => True
  | _ => u.pre q a.s

/-- For a call: valid iterators, elements that exist, and the preconditions of the operation. -/
def Call.Pre (q : Cfg) (a : AS V) (m : Call V) : Prop := ∃ u, m.op a = some u ∧ m.Asks q a u

/-- In the run that it has. -/
def StdProg.Pre (W : Nat) (q : Cfg) : StdProg V R → AS V → Prop
  | .ret _, _ => True
  | .look l k, a => l.Pre W q a ∧ ∀ x, l.mean a = some x → (k x.1).Pre W q x.2
  | .call m y k, a => m.Pre q a ∧ ∀ x, m.mean q y a = some x → (k x.1).Pre W q x.2

/-! ## Proofs -/

variable {I : Impl V O} {mn : Nat} {mkA : Bool} {L : Lawful I mn mkA} {W : Nat}

/-- A usable variable has the address of its index in the current storage. -/
def Agrees (I : Impl V O) (c : CS V O) (a : AS V) : Prop :=
  ∀ x p, a.pos x = some p → c.its x = some (I.addr c.o p) ∧ p ≤ a.s.1.length

theorem Agrees.at_ {c : CS V O} {a : AS V} (g : Agrees I c a) {x p : Nat} (hx : a.pos x = some p) : c.at_ I x = some p := by
  simp only [CS.at_, (g x p hx).1, Impl.addr, if_true]

/-- The argument is the value it has before the call. -/
theorem Agrees.ref {c : CS V O} {a : AS V} (g : Agrees I c a) {v : Val V} {w : V} (hv : v.now a = some w) (t : Bool) :
    (v = .fresh w ∧ v.ref I c t = some (.lit w t)) ∨ ∃ x k, v = .elem x ∧ v.ref I c t = some (.self k t) ∧ a.s.1[k]? = some w := by
  cases v with
  | fresh v => simp only [Val.now, Option.some.injEq] at hv; subst hv; exact .inl ⟨rfl, rfl⟩
  | elem x =>
    simp only [Val.now, Option.bind_eq_some_iff] at hv
    obtain ⟨k, h1, h2⟩ := hv
    exact .inr ⟨x, k, rfl, by simp only [Val.ref, g.at_ h1, Option.map_some], h2⟩

/-- The call ends as specified, and returns the address of the element with index `p`. -/
def GoodDone (L : Lawful I mn mkA) (h : Heap V) (o : O) (d : Done (Heap V × O)) (s : SV V × Bool) (p : Option Nat) : Prop :=
  ∃ h' o', d = (if s.2 then .exn (h', o') else .ok (h', o') (p.map (I.addr o'))) ∧ L.Rep h' o' s.1.1 s.1.2 ∧
    Frame (I.own o) h (I.own o') h' ∧ PtrRule I h o o' s.1.2

theorem goodDone_of {h : Heap V} {o : O} {r : Out (Heap V × O)} {s : SV V × Bool} (g : Good L h o r s) : GoodDone L h o (doneOf r) s none := by
  obtain ⟨h', o', e, g'⟩ := g
  refine ⟨h', o', ?_, g'⟩
  rw [e]
  cases s.2 <;> rfl

theorem goodDone_ret {h : Heap V} {o : O} {r : Gives (Heap V × O)} {s : SV V × Bool} {p : Nat} (g : Good L h o r.forget s)
    (ha : ∀ s' a, r = .ok s' a → a = I.addr s'.2 p) : GoodDone L h o r.done s (some p) := by
  obtain ⟨h', o', e, g'⟩ := g
  refine ⟨h', o', ?_, g'⟩
  obtain ⟨s1, b⟩ := s
  cases r with
  | ub => cases b <;> cases e
  | exn s' => cases b <;> cases e; rfl
  | ok s' a =>
    cases b <;> cases e
    rw [ha _ _ rfl]; rfl

theorem goodDone_insert {h : Heap V} {o : O} {xs : List V} {cap k : Nat} (r : L.Rep h o xs cap) (hf : Fresh h) (src : List (Item V)) (al : Nat → Bool)
    (hp : (GOp.insert k src al).pre L.cfg (xs, cap)) :
    GoodDone L h o (I.insertRet h o k src al).done ((GOp.insert k src al).spec L.cfg (xs, cap)) (some k) := by
  refine goodDone_ret ?_ fun s' a e => ?_
  · rw [I.insertRet_forget]; exact good_insert r hf src al hp.1 hp.2
  · have := C62_insert r hf src al hp.1 hp.2
    rw [e] at this
    exact this.1

theorem goodDone_throw {h : Heap V} {o : O} {xs : List V} {cap : Nat} (r : L.Rep h o xs cap) (p : Option Nat) :
    GoodDone L h o (.exn (h, o)) ((xs, cap), true) p :=
  ⟨h, o, rfl, r, Frame.refl _ _, fun _ => rfl, fun e ne => absurd (by rw [r.mem]; exact e) ne⟩

theorem specInsert_throw {q : Cfg} {s : SV V} {k : Nat} {vs : List V} {al : Nat → Bool} : specInsert q s k vs false al = (s, true) := by
  simp [specInsert]

/-- The outcome of a call as the specification has it. -/
def Call.end_ (q : Cfg) (m : Call V) (u : GOp V) (s : SV V) : SV V × Bool := if m.early q.mx then (s, true) else u.spec q s

theorem goodDone_copy {h : Heap V} {o : O} {xs : List V} {cap k n j : Nat} {w : V} (r : L.Rep h o xs cap) (hf : Fresh h) (hw : xs[j]? = some w) (t : Bool)
    (thr : Nat → Bool) (al : Nat → Bool) (hp : (GOp.insert k ((List.range n).map fun i => ⟨w, thr i⟩) al).pre L.cfg (xs, cap)) :
    GoodDone L h o (I.insertCopy h o k n (.self j t) thr al).done
      (if t then ((xs, cap), true) else (GOp.insert k ((List.range n).map fun i => ⟨w, thr i⟩) al).spec L.cfg (xs, cap)) (some k) := by
  have hj : j < xs.length := (List.getElem?_eq_some_iff.1 hw).1
  have hr2 := r.2
  have e : (PSrc.self j t : PSrc V).eval (I.mem h o) = some (w, t) := by
    rw [r.mem]; simp only [PSrc.eval, readCell, cells, if_pos (show j < cap by omega), hw, Option.map_some]
  simp only [Impl.insertCopy, e]
  cases t
  · exact goodDone_insert r hf _ al hp
  · exact goodDone_throw r _

theorem goodDone_copy_lit {h : Heap V} {o : O} {xs : List V} {cap k : Nat} {w : V} (r : L.Rep h o xs cap) (hf : Fresh h) (t : Bool)
    (al : Nat → Bool) (hp : (GOp.insert k [⟨w, t⟩] al).pre L.cfg (xs, cap)) :
    GoodDone L h o (I.insertCopy h o k 1 (.lit w t) (fun _ => false) al).done ((GOp.insert k [⟨w, t⟩] al).spec L.cfg (xs, cap)) (some k) := by
  simp only [Impl.insertCopy, PSrc.eval]
  cases t
  · exact goodDone_insert r hf _ al hp
  · have : (GOp.insert k [(⟨w, true⟩ : Item V)] al).spec L.cfg (xs, cap) = ((xs, cap), true) := specInsert_throw
    rw [this]
    exact goodDone_throw r _

theorem goodDone_copy_one {h : Heap V} {o : O} {xs : List V} {cap k j : Nat} {w : V} (r : L.Rep h o xs cap) (hf : Fresh h) (hw : xs[j]? = some w) (t : Bool)
    (al : Nat → Bool) (hp : (GOp.insert k [⟨w, t⟩] al).pre L.cfg (xs, cap)) :
    GoodDone L h o (I.insertCopy h o k 1 (.self j t) (fun _ => false) al).done ((GOp.insert k [⟨w, t⟩] al).spec L.cfg (xs, cap)) (some k) := by
  have := goodDone_copy (k := k) (n := 1) r hf hw t (fun _ => false) al ⟨hp.1, fun e => by simp at e⟩
  cases t
  · exact this
  · have e : (GOp.insert k [(⟨w, true⟩ : Item V)] al).spec L.cfg (xs, cap) = ((xs, cap), true) := specInsert_throw
    rw [e]; exact this

theorem good_push_done {h : Heap V} {o : O} {xs : List V} {cap : Nat} {s : PSrc V} {w : V} {t : Bool} (r : L.Rep h o xs cap) (hf : Fresh h)
    (hs : s = .lit w t ∨ ∃ k, s = .self k t ∧ xs[k]? = some w) (al : Nat → Bool) (hp : (GOp.push (.lit w t) al).pre L.cfg (xs, cap)) :
    GoodDone L h o (I.pushRet h o s al).done ((GOp.push (.lit w t) al).spec L.cfg (xs, cap)) (some xs.length) := by
  refine goodDone_ret ?_ fun s' a e => ?_
  · rw [I.pushRet_forget]; exact good_push r hf s w t al hp hs
  · have := C62_push_back r hf s w t hs al hp
    rw [e] at this
    exact this.1

theorem inStorage_self {h : Heap V} {o : O} {xs : List V} {cap k : Nat} {w : V} {t : Bool} (r : L.Rep h o xs cap) (hw : xs[k]? = some w) :
    I.inStorage o (.self k t : PSrc V) = true := by
  have hj : k < xs.length := (List.getElem?_eq_some_iff.1 hw).1
  have hs : I.size o = xs.length := r.1.2.2
  simp [Impl.inStorage, hs, hj]

theorem good_resize_from {h : Heap V} {o : O} {xs : List V} {cap j n : Nat} {w : V} (r : L.Rep h o xs cap) (hf : Fresh h) (hw : xs[j]? = some w)
    (thr : Nat → Bool) (al : Nat → Bool) (hp : (GOp.resize n (fun i => ⟨w, thr i⟩) al).pre L.cfg (xs, cap)) :
    Good L h o (I.resizeFrom h o n j thr al) ((GOp.resize n (fun i => ⟨w, thr i⟩) al).spec L.cfg (xs, cap)) := by
  have hs : I.size o = xs.length := r.1.2.2
  have e : I.resizeFrom h o n j thr al = I.resize h o n (fun i => ⟨w, thr i⟩) al := by
    simp only [Impl.resizeFrom, Impl.resize]
    split
    · rfl
    · refine appendRefs_eq r hf ?_ al
      simp only [List.map_map]
      refine List.map_congr_left fun i _ => ?_
      simp only [Function.comp_apply, PSrc.now, hw, Option.map_some]
  rw [e]
  exact good_resize r hf n _ al hp

/-- One call. -/
theorem Call.good {c : CS V O} {a : AS V} (r : L.Rep c.h c.o a.s.1 a.s.2) (hf : Fresh c.h) (g : Agrees I c a) (hfix : I.reservable = false → mn = I.mx)
    (m : Call V) {u : GOp V} (hu : m.op a = some u) (hp : m.Asks L.cfg a u) :
    GoodDone L c.h c.o (m.run I mn c) (m.end_ L.cfg u a.s) (m.gives a) := by
  obtain ⟨⟨xs, cap⟩, pos⟩ := a
  simp only at r
  have hmx : L.cfg.mx = I.mx := rfl
  have hfull : I.reservable = false → cap = I.mx ∧ mn = cap := by
    intro h
    have := r.view.range
    have := hfix h
    omega
  cases m with
  | push v t al =>
    simp only [Call.op, Option.map_eq_some_iff] at hu
    obtain ⟨w, hw, rfl⟩ := hu
    simp only [Call.run, Call.end_, Call.early, Bool.false_eq_true, if_false, Call.gives]
    rcases g.ref hw t with ⟨-, e⟩ | ⟨_, k, -, e, hk⟩
    · rw [e]; exact goodDone_of (good_push r hf _ w t al hp (.inl rfl))
    · rw [e]; exact goodDone_of (good_push r hf _ w t al hp (.inr ⟨k, rfl, hk⟩))
  | emplaceBack v t al =>
    simp only [Call.op, Option.map_eq_some_iff] at hu
    obtain ⟨w, hw, rfl⟩ := hu
    simp only [Call.run, Call.end_, Call.early, Bool.false_eq_true, if_false, Call.gives]
    rcases g.ref hw t with ⟨-, e⟩ | ⟨_, k, -, e, hk⟩
    · rw [e]; exact good_push_done r hf (.inl rfl) al hp
    · rw [e]; exact good_push_done r hf (.inr ⟨k, rfl, hk⟩) al hp
  | insert x v t al =>
    simp only [Call.op, Option.map_eq_some_iff, Option.bind_eq_some_iff] at hu
    obtain ⟨p, hx, w, hw, rfl⟩ := hu
    simp only [Call.run, Call.end_, Call.early, Bool.false_eq_true, if_false, Call.gives, g.at_ hx, hx]
    rcases g.ref hw t with ⟨-, e⟩ | ⟨_, k, -, e, hk⟩
    · rw [e]; exact goodDone_insert r hf _ al hp
    · rw [e]; simp only [inStorage_self r hk, if_true]; exact goodDone_copy_one r hf hk t al hp
  | emplace x v t al =>
    simp only [Call.op, Option.map_eq_some_iff, Option.bind_eq_some_iff] at hu
    obtain ⟨p, hx, w, hw, rfl⟩ := hu
    simp only [Call.run, Call.end_, Call.early, Bool.false_eq_true, if_false, Call.gives, g.at_ hx, hx]
    rcases g.ref hw t with ⟨-, e⟩ | ⟨_, k, -, e, hk⟩
    · rw [e]; exact goodDone_copy_lit r hf t al hp
    · rw [e]; exact goodDone_copy_one r hf hk t al hp
  | insertCount x n v first thr al =>
    simp only [Call.op, Option.map_eq_some_iff, Option.bind_eq_some_iff] at hu
    obtain ⟨p, hx, w, hw, rfl⟩ := hu
    simp only [Call.run, Call.end_, Call.gives, g.at_ hx, hx]
    rcases g.ref hw first with ⟨ev, e⟩ | ⟨_, k, ev, e, hk⟩
    · rw [e, ev]; simp only [Call.early, Bool.false_eq_true, if_false]; exact goodDone_insert r hf _ al hp
    · rw [e, ev]; simp only [inStorage_self r hk, if_true, Call.early]; exact goodDone_copy r hf hk first thr al hp
  | insertRange x src al =>
    simp only [Call.op, Option.map_eq_some_iff] at hu
    obtain ⟨p, hx, rfl⟩ := hu
    simp only [Call.run, Call.end_, Call.early, Bool.false_eq_true, if_false, Call.gives, g.at_ hx, hx]
    exact goodDone_insert r hf _ al hp
  | erase x =>
    simp only [Call.op, Option.map_eq_some_iff] at hu
    obtain ⟨p, hx, rfl⟩ := hu
    simp only [Call.run, Call.end_, Call.early, Bool.false_eq_true, if_false, Call.gives, g.at_ hx, hx]
    refine goodDone_ret ?_ fun s' b e => ?_
    · rw [I.eraseRet_forget]; exact good_erase r hp.1 hp.2
    · obtain ⟨h', o', e', _⟩ := C62_erase r hp.1 hp.2
      rw [e'] at e; cases e; rfl
  | eraseRange x y =>
    simp only [Call.op, Option.map_eq_some_iff, Option.bind_eq_some_iff] at hu
    obtain ⟨p, hx, p', hy, rfl⟩ := hu
    simp only [Call.run, Call.end_, Call.early, Bool.false_eq_true, if_false, Call.gives, g.at_ hx, g.at_ hy, hx]
    refine goodDone_ret ?_ fun s' b e => ?_
    · rw [I.eraseRet_forget]; exact good_erase r hp.1 hp.2
    · obtain ⟨h', o', e', _⟩ := C62_erase r hp.1 hp.2
      rw [e'] at e; cases e; rfl
  | resizeValue n v thr al =>
    simp only [Call.op, Option.map_eq_some_iff] at hu
    obtain ⟨w, hw, rfl⟩ := hu
    simp only [Call.run, Call.end_, Call.early, Bool.false_eq_true, if_false, Call.gives]
    cases v with
    | fresh v =>
      simp only [Val.now, Option.some.injEq] at hw; subst hw
      exact goodDone_of (good_resize r hf n _ al hp)
    | elem x =>
      simp only [Val.now, Option.bind_eq_some_iff] at hw
      obtain ⟨k, h1, h2⟩ := hw
      simp only [g.at_ h1]
      exact goodDone_of (good_resize_from r hf h2 thr al hp)
  | reserve n f =>
    simp only [Call.op, Option.some.injEq] at hu
    subst hu
    simp only [Call.run, Call.end_, Call.early, hmx, Call.gives, decide_eq_true_eq]
    by_cases hn : I.mx < n
    · rw [if_pos hn, if_pos hn]; exact goodDone_throw r _
    · rw [if_neg hn, if_neg hn]
      cases hr : I.reservable with
      | true => exact goodDone_of (good_step r hf (.reserve n f) ⟨by rw [hmx]; omega, hr⟩)
      | false =>
        obtain ⟨h1, _⟩ := hfull hr
        have e : (GOp.reserve n f : GOp V).spec L.cfg (xs, cap) = ((xs, cap), false) := by simp only [GOp.spec]; rw [if_pos (by omega)]
        rw [e]
        exact ⟨c.h, c.o, rfl, r, Frame.refl _ _, fun _ => rfl, fun e ne => absurd (by rw [r.mem]; exact e) ne⟩
  | shrink al =>
    simp only [Call.op, Option.some.injEq] at hu
    subst hu
    simp only [Call.run, Call.end_, Call.early, Bool.false_eq_true, if_false, Call.gives]
    cases hr : I.reservable with
    | true => exact goodDone_of (good_step r hf (.shrink al) hr)
    | false =>
      obtain ⟨h1, h2⟩ := hfull hr
      have hx : xs.length ≤ cap := r.2
      have hm : L.cfg.mn = mn := rfl
      have e : (GOp.shrink al : GOp V).spec L.cfg (xs, cap) = ((xs, cap), false) := by simp only [GOp.spec, hm]; rw [if_pos (by omega)]
      rw [e]
      exact ⟨c.h, c.o, rfl, r, Frame.refl _ _, fun _ => rfl, fun e ne => absurd (by rw [r.mem]; exact e) ne⟩
  | plain u' =>
    simp only [Call.op, Option.some.injEq] at hu
    subst hu
    exact goodDone_of (good_step r hf u' hp)

/-- The precondition that is needed for what becomes of the variables. -/
theorem Call.pre_valid {q : Cfg} {a : AS V} {m : Call V} {u : GOp V} (hu : m.op a = some u)
    (hp : m.Asks q a u) : u.pre q a.s ∨ (∃ n f, u = .reserve n f) ∨ ∃ al, u = .shrink al := by
  cases m <;> first
    | exact .inl hp
    | (simp only [Call.op, Option.some.injEq] at hu; subst hu; first | exact .inr (.inl ⟨_, _, rfl⟩) | exact .inr (.inr ⟨_, rfl⟩))

theorem spec_keeps {q : Cfg} {xs : List V} {cap : Nat} (hx : xs.length ≤ cap) {u : GOp V}
    (hp : u.pre q (xs, cap) ∨ (∃ n f, u = .reserve n f) ∨ ∃ al, u = .shrink al) {p : Nat} (hv : u.valid (xs, cap) (u.spec q (xs, cap)).2 p = true) :
    (u.spec q (xs, cap)).1.2 = cap ∧ (p ≤ xs.length → p ≤ (u.spec q (xs, cap)).1.1.length) := by
  simp only [GOp.valid, Bool.or_eq_true, Bool.and_eq_true, Bool.not_eq_true', decide_eq_true_eq] at hv
  rcases hv with ⟨h1, h2⟩ | ⟨⟨h1, h2⟩, h3⟩
  · rw [spec_strong u h2 h1]; exact ⟨rfl, id⟩
  · rcases hp with hp | ⟨n, f, rfl⟩ | ⟨al, rfl⟩
    · obtain ⟨e1, e2⟩ := spec_room hx u hp h1 h2
      refine ⟨e1, fun hpl => ?_⟩
      by_cases hlt : p < xs.length
      · have := e2 p h3
        rw [List.getElem?_eq_getElem hlt] at this
        exact Nat.le_of_lt (List.getElem?_eq_some_iff.1 this).1
      · have hpe : p = xs.length := by omega
        by_cases h0 : xs.length = 0
        · omega
        · have := e2 (p - 1) (by omega)
          rw [List.getElem?_eq_getElem (show p - 1 < xs.length by omega)] at this
          have := (List.getElem?_eq_some_iff.1 this).1
          omega
    · simp only [GOp.needs] at h2
      simp only [GOp.spec, if_pos h2]; exact ⟨trivial, id⟩
    · cases h1

theorem Call.gives_le {q : Cfg} {a : AS V} {m : Call V} {u : GOp V} (hu : m.op a = some u)
    (hp : m.Asks q a u) (hn : (u.spec q a.s).2 = false) {p : Nat} (hg : m.gives a = some p) :
    p ≤ (u.spec q a.s).1.1.length := by
  rw [GOp.spec_seq hn]
  cases m <;> simp only [Call.gives, Option.some.injEq, reduceCtorEq] at hg <;>
    simp only [Call.op, Option.map_eq_some_iff, Option.bind_eq_some_iff, hg, Option.some.injEq] at hu
  case emplaceBack =>
    obtain ⟨w, -, rfl⟩ := hu
    simp only [GOp.seq, List.length_append, List.length_singleton]; omega
  case insert | emplace | insertCount =>
    obtain ⟨p', rfl, w, -, rfl⟩ := hu
    have := hp.1
    simp only [GOp.seq, List.length_append, List.length_take]; omega
  case insertRange =>
    obtain ⟨p', rfl, rfl⟩ := hu
    have := hp.1
    simp only [GOp.seq, List.length_append, List.length_take]; omega
  case erase =>
    obtain ⟨p', rfl, rfl⟩ := hu
    have := hp.1
    have := hp.2
    simp only [GOp.seq, List.length_append, List.length_take]; omega
  case eraseRange =>
    obtain ⟨p', rfl, r', -, rfl⟩ := hu
    have := hp.1
    have := hp.2
    simp only [GOp.seq, List.length_append, List.length_take]; omega

/-- The state of the program is as specified. -/
structure Tracks (L : Lawful I mn mkA) (c : CS V O) (a : AS V) : Prop where
  rep : L.Rep c.h c.o a.s.1 a.s.2
  fresh : Fresh c.h
  vars : Agrees I c a

theorem Tracks.set {c : CS V O} {a : AS V} (t : Tracks L c a) (x : Nat) {p : Nat} (hp : p ≤ a.s.1.length) : Tracks L (c.set x (I.addr c.o p)) (a.set x p) := by
  refine ⟨t.rep, t.fresh, fun z k hz => ?_⟩
  simp only [AS.set] at hz
  simp only [CS.set, AS.set]
  by_cases h : z = x
  · rw [if_pos h, Option.some.injEq] at hz; subst hz
    rw [if_pos h]; exact ⟨rfl, hp⟩
  · rw [if_neg h] at hz
    rw [if_neg h]; exact t.vars z k hz

theorem Tracks.assign {c : CS V O} {a : AS V} (t : Tracks L c a) {k : Nat} (hk : k < a.s.1.length) (v : V) :
    ∃ s : Heap V × O, I.assignAt c.h c.o k v = some s ∧ Tracks L { c with h := s.1, o := s.2 } { a with s := (a.s.1.set k v, a.s.2) } ∧
      Frame (I.own c.o) c.h (I.own s.2) s.1 := by
  obtain ⟨h', o', e, r', f⟩ := Rep.assignAt t.rep hk v
  refine ⟨(h', o'), e, ⟨r', f.fresh t.fresh, fun z p hz => ?_⟩, f⟩
  obtain ⟨h1, h2⟩ := t.vars z p hz
  have hptr : I.ptr o' = I.ptr c.o := by
    simp only [Impl.assignAt, Rep.index t.rep, List.getElem?_eq_getElem hk, Option.some.injEq] at e
    have := (L.put_law (upd (I.mem c.h c.o).2 k (some v)) t.rep.1.1).2.2.2.1
    rw [e] at this
    exact this
  refine ⟨?_, by simpa using h2⟩
  rw [h1]; simp only [Impl.addr, hptr]

/-- One look. -/
theorem Look.good (hW : 64 ≤ W) (hm : (I.mx : Int) < 2 ^ (W - 1)) {c : CS V O} {a : AS V} (t : Tracks L c a) (l : Look V) (hp : l.Pre W L.cfg a) :
    ∃ x a' c', l.mean a = some (x, a') ∧ l.run I W c = some (x, c') ∧ Tracks L c' a' ∧ Frame (I.own c.o) c.h (I.own c'.o) c'.h := by
  have hs : I.size c.o = a.s.1.length := t.rep.1.2.2
  have fr : Frame (I.own c.o) c.h (I.own c.o) c.h := Frame.refl _ _
  cases l with
  | first x => exact ⟨_, _, _, rfl, rfl, t.set x (Nat.zero_le _), fr⟩
  | last x => exact ⟨_, _, _, rfl, by simp only [Look.run, hs], t.set x (Nat.le_refl _), fr⟩
  | move x d y =>
    obtain ⟨k, h1, h2, h3⟩ := hp
    have hr := t.rep.2
    refine ⟨_, _, _, by simp only [Look.mean, h1, Option.map_some]; rfl, ?_, t.set y (p := ((k : Int) + d).toNat) (by omega), fr⟩
    simp only [Look.run, t.vars.at_ h1, t.rep.mem]
    rw [if_pos (by omega)]
  | diff x y =>
    obtain ⟨h1, h2⟩ := hp
    obtain ⟨k, h1⟩ := Option.isSome_iff_exists.1 h1
    obtain ⟨j, h2⟩ := Option.isSome_iff_exists.1 h2
    exact ⟨_, _, c, by simp only [Look.mean, h1, h2, Option.bind_some, Option.map_some]; rfl, by simp only [Look.run, t.vars.at_ h1, t.vars.at_ h2], t, fr⟩
  | deref x =>
    obtain ⟨k, h1, h2⟩ := hp
    exact ⟨_, _, c, by simp only [Look.mean, h1, List.getElem?_eq_getElem h2, Option.bind_some, Option.map_some]; rfl,
      by simp only [Look.run, (t.vars x k h1).1, deref_addr t.rep, List.getElem?_eq_getElem h2, Option.map_some], t, fr⟩
  | write x v =>
    obtain ⟨k, h1, h2⟩ := hp
    obtain ⟨s, e, t', f⟩ := t.assign h2 v
    exact ⟨_, _, _, by simp only [Look.mean, h1, Option.map_some]; rfl, by simp only [Look.run, t.vars.at_ h1, e, Option.map_some], t', f⟩
  | index i =>
    exact ⟨_, _, c, by simp only [Look.mean, List.getElem?_eq_getElem (show i < a.s.1.length from hp), Option.map_some]; rfl,
      by simp only [Look.run, Rep.index t.rep, List.getElem?_eq_getElem (show i < a.s.1.length from hp), Option.map_some], t, fr⟩
  | put i v =>
    obtain ⟨s, e, t', f⟩ := t.assign (show i < a.s.1.length from hp) v
    exact ⟨_, _, _, rfl, by simp only [Look.run, e, Option.map_some], t', f⟩
  | at' i x =>
    obtain ⟨h1, h2, h3, h4⟩ := hp
    refine ⟨_, _, c, rfl, ?_, t, fr⟩
    simp only [Look.run]
    rw [Rep.at' hW hm t.rep h1 h2 h3 h4]
    cases (if 0 ≤ x then a.s.1[x.toNat]? else none) <;> rfl
  | front =>
    simp only [Look.mean, Look.run, Rep.front t.rep]
    cases hx : a.s.1 with
    | nil => exact absurd hx hp
    | cons y ys => exact ⟨_, _, c, rfl, rfl, t, fr⟩
  | back =>
    simp only [Look.mean, Look.run, Rep.back t.rep]
    cases hx : a.s.1.getLast? with
    | none => exact absurd (List.getLast?_eq_none_iff.1 hx) hp
    | some y => exact ⟨_, _, c, rfl, rfl, t, fr⟩
  | size => exact ⟨_, _, c, rfl, by simp only [Look.run, hs], t, fr⟩
  | capacity => exact ⟨_, _, c, rfl, by simp only [Look.run, t.rep.view.cap, Option.map_some], t, fr⟩
  | empty => exact ⟨_, _, c, rfl, by simp only [Look.run, Rep.isEmpty t.rep], t, fr⟩
  | iterate => exact ⟨_, _, c, rfl, by simp only [Look.run, Rep.iterate t.rep, Option.map_some], t, fr⟩

/-- What becomes of the variables that stay valid. -/
theorem Tracks.after {c : CS V O} {a : AS V} (t : Tracks L c a) {m : Call V} {u : GOp V} (hu : m.op a = some u)
    (hp : m.Asks L.cfg a u) {o' : O} (pr : PtrRule I c.h c.o o' (u.spec L.cfg a.s).1.2) {x p : Nat}
    (hx : (a.pos x).filter (u.valid a.s (u.spec L.cfg a.s).2) = some p) :
    c.its x = some (I.addr o' p) ∧ p ≤ (u.spec L.cfg a.s).1.1.length := by
  rw [Option.filter_eq_some_iff] at hx
  obtain ⟨h1, h2⟩ := hx
  obtain ⟨h3, h4⟩ := t.vars x p h1
  obtain ⟨k1, k2⟩ := spec_keeps (q := L.cfg) (xs := a.s.1) (cap := a.s.2) t.rep.2 (Call.pre_valid hu hp) h2
  refine ⟨?_, k2 h4⟩
  rw [h3]
  have := pr.1 (k1.trans (by rw [t.rep.mem]))
  simp only [Impl.addr, this]

/-- C104: a program that uses a vector in the style of the standard library and iterators of it, by the rules of the standard (and the further ones in `GOp.pre`),
is defined; everything it reads, which calls throw, and every iterator it is given are as for a sequence with positions. This is so whatever throws and
whatever allocation fails, and nothing else in memory is touched. `hfix`: a vector that cannot grow has its maximum as its capacity. -/
theorem C104_program_partial (hW : 64 ≤ W) (hm : (I.mx : Int) < 2 ^ (W - 1)) (hfix : I.reservable = false → mn = I.mx) :
    ∀ (P : StdProg V R) {c : CS V O} {a : AS V}, Tracks L c a → P.Pre W L.cfg a →
      ∃ r a' c', P.mean L.cfg a = some (r, a') ∧ P.run I W mn c = some (r, c') ∧ Tracks L c' a' ∧ Frame (I.own c.o) c.h (I.own c'.o) c'.h
  | .ret r, c, a, t, _ => ⟨r, a, c, rfl, rfl, t, Frame.refl _ _⟩
  | .look l k, c, a, t, ⟨h1, h2⟩ => by
    obtain ⟨x, a1, c1, e1, e2, t1, f1⟩ := Look.good hW hm t l h1
    obtain ⟨r, a2, c2, e3, e4, t2, f2⟩ := C104_program_partial hW hm hfix (k x) t1 (h2 _ e1)
    exact ⟨r, a2, c2, by simp only [StdProg.mean, e1, Option.bind_some, e3], by simp only [StdProg.run, e2, e4], t2, f1.trans f2⟩
  | .call m y k, c, a, t, ⟨h1, h2⟩ => by
    obtain ⟨u, hu, hp⟩ := h1
    have hmx : L.cfg.mx = I.mx := rfl
    have gd := Call.good t.rep t.fresh t.vars hfix m hu hp
    have hmean := congrArg (Option.map fun u => (if m.early L.cfg.mx then (true, a)
      else ((u.spec L.cfg a.s).2, (⟨(u.spec L.cfg a.s).1, fun z =>
        if z = y ∧ (u.spec L.cfg a.s).2 = false ∧ (m.gives a).isSome then m.gives a else (a.pos z).filter (u.valid a.s (u.spec L.cfg a.s).2)⟩ : AS V)))) hu
    change m.mean L.cfg y a = some _ at hmean
    obtain ⟨h', o', e, r', f, pr⟩ := gd
    simp only [Call.end_] at e r' pr
    by_cases he : m.early L.cfg.mx = true
    · simp only [he, if_true] at hmean e r' pr
      have t1 : Tracks L { c with h := h', o := o' } a := by
        refine ⟨r', f.fresh t.fresh, fun z p hz => ?_⟩
        obtain ⟨g1, g2⟩ := t.vars z p hz
        refine ⟨?_, g2⟩
        rw [g1]; have := pr.1 (by rw [t.rep.mem]); simp only [Impl.addr, this]
      obtain ⟨r, a2, c2, e3, e4, t2, f2⟩ := C104_program_partial hW hm hfix (k true) t1 (h2 _ hmean)
      exact ⟨r, a2, c2, by simp only [StdProg.mean, hmean, Option.bind_some, e3], by simp only [StdProg.run, e, e4], t2, f.trans f2⟩
    · simp only [if_neg he] at hmean e r' pr
      cases hb : (u.spec L.cfg a.s).2 with
      | true =>
        simp only [hb, if_true] at e
        have t1 : Tracks L { c with h := h', o := o' } ⟨(u.spec L.cfg a.s).1, fun z =>
            if z = y ∧ (u.spec L.cfg a.s).2 = false ∧ (m.gives a).isSome then m.gives a else (a.pos z).filter (u.valid a.s (u.spec L.cfg a.s).2)⟩ := by
          refine ⟨r', f.fresh t.fresh, fun z p hz => ?_⟩
          simp only at hz
          rw [if_neg (by simp [hb])] at hz
          exact t.after hu hp pr hz
        obtain ⟨r, a2, c2, e3, e4, t2, f2⟩ := C104_program_partial hW hm hfix (k true) t1 (congrArg k hb ▸ h2 _ hmean)
        refine ⟨r, a2, c2, ?_, by simp only [StdProg.run, e, e4], t2, f.trans f2⟩
        simp only [StdProg.mean, hmean, Option.bind_some]
        exact (congrArg (fun z => StdProg.mean L.cfg (k z) _) hb).trans e3
      | false =>
        simp only [hb, Bool.false_eq_true, if_false] at e
        cases hg : m.gives a with
        | none =>
          have t1 : Tracks L { c with h := h', o := o' } ⟨(u.spec L.cfg a.s).1, fun z =>
              if z = y ∧ (u.spec L.cfg a.s).2 = false ∧ (m.gives a).isSome then m.gives a else (a.pos z).filter (u.valid a.s (u.spec L.cfg a.s).2)⟩ := by
            refine ⟨r', f.fresh t.fresh, fun z p hz => ?_⟩
            simp only at hz
            rw [if_neg (by simp [hg])] at hz
            exact t.after hu hp pr hz
          obtain ⟨r, a2, c2, e3, e4, t2, f2⟩ := C104_program_partial hW hm hfix (k false) t1 (congrArg k hb ▸ h2 _ hmean)
          refine ⟨r, a2, c2, ?_, by simp only [StdProg.run, e, hg, Option.map_none, e4], t2, f.trans f2⟩
          simp only [StdProg.mean, hmean, Option.bind_some]
          exact (congrArg (fun z => StdProg.mean L.cfg (k z) _) hb).trans e3
        | some p =>
          have t1 : Tracks L (CS.set { c with h := h', o := o' } y (I.addr o' p)) ⟨(u.spec L.cfg a.s).1, fun z =>
              if z = y ∧ (u.spec L.cfg a.s).2 = false ∧ (m.gives a).isSome then m.gives a else (a.pos z).filter (u.valid a.s (u.spec L.cfg a.s).2)⟩ := by
            refine ⟨r', f.fresh t.fresh, fun z j hz => ?_⟩
            simp only at hz
            simp only [CS.set]
            by_cases hzy : z = y
            · rw [if_pos ⟨hzy, hb, by simp [hg]⟩, hg, Option.some.injEq] at hz
              subst hz
              rw [if_pos hzy]
              exact ⟨rfl, Call.gives_le hu hp hb hg⟩
            · rw [if_neg (fun q => hzy q.1)] at hz
              rw [if_neg hzy]
              exact t.after hu hp pr hz
          obtain ⟨r, a2, c2, e3, e4, t2, f2⟩ := C104_program_partial hW hm hfix (k false) t1 (congrArg k hb ▸ h2 _ hmean)
          refine ⟨r, a2, c2, ?_, by simp only [StdProg.run, e, hg, Option.map_some, e4], t2, f.trans f2⟩
          simp only [StdProg.mean, hmean, Option.bind_some]
          exact (congrArg (fun z => StdProg.mean L.cfg (k z) _) hb).trans e3

/-- C104 for the standard-style `vector` from the beginning: an empty vector and no iterators. -/
theorem C104_vector_partial (hW : 64 ≤ W) {mx : Nat} (h0 : 0 < mx) (hm : (mx : Int) < 2 ^ (W - 1)) (P : StdProg V R) {h : Heap V} (hf : Fresh h)
    (hp : P.Pre W (Vec.lawful (V := V) 0 mx (Nat.zero_le _)).cfg ⟨([], 0), fun _ => none⟩) :
    ∃ r a c, P.mean (Vec.lawful (V := V) 0 mx (Nat.zero_le _)).cfg ⟨([], 0), fun _ => none⟩ = some (r, a) ∧
      P.run (vec V 0 mx) W 0 ⟨h, { ptr := none, cap := 0, size := 0 }, fun _ => none⟩ = some (r, c) ∧
      (Vec.lawful (V := V) 0 mx (Nat.zero_le _)).Rep c.h c.o a.s.1 a.s.2 := by
  obtain ⟨r, a, c, e1, e2, t, -⟩ := C104_program_partial (L := Vec.lawful (V := V) 0 mx (Nat.zero_le _)) hW hm
    (fun hr => by have : decide (0 ≠ mx) = false := hr; simp at this; omega) P (c := ⟨h, { ptr := none, cap := 0, size := 0 }, fun _ => none⟩) (a := ⟨([], 0), fun _ => none⟩)
    ⟨⟨⟨.inl ⟨rfl, rfl, rfl⟩, rfl, rfl⟩, Nat.le_refl 0⟩, hf, fun x p hx => by cases hx⟩ hp
  exact ⟨r, a, c, e1, e2, t.rep⟩

/-- C104 for `inplace_vector`. -/
theorem C104_inplace_vector_partial (hW : 64 ≤ W) {N : Nat} (hm : (N : Int) < 2 ^ (W - 1)) (P : StdProg V R) {h : Heap V} (hf : Fresh h)
    (hp : P.Pre W (Stat.lawful (V := V) N).cfg ⟨([], N), fun _ => none⟩) :
    ∃ r a c, P.mean (Stat.lawful (V := V) N).cfg ⟨([], N), fun _ => none⟩ = some (r, a) ∧
      P.run (stat V N) W N ⟨h, ⟨fun _ => none, 0⟩, fun _ => none⟩ = some (r, c) ∧
      (Stat.lawful (V := V) N).Rep c.h c.o a.s.1 a.s.2 := by
  obtain ⟨r, a, c, e1, e2, t, -⟩ := C104_program_partial (L := Stat.lawful (V := V) N) hW hm (fun _ => rfl) P
    (c := ⟨h, ⟨fun _ => none, 0⟩, fun _ => none⟩) (a := ⟨([], N), fun _ => none⟩) ⟨Stat.empty_rep _, hf, fun x p hx => by cases hx⟩ hp
  exact ⟨r, a, c, e1, e2, t.rep⟩

/-! ## What the standard permits and the code does not -/

theorem insert_nothing {h : Heap V} {o : O} {xs : List V} {cap k : Nat} (r : L.Rep h o xs cap) (hk : k < xs.length) (al : Nat → Bool) :
    I.insertRet h o k [] al = .ub := by
  have hs : I.size o = xs.length := r.1.2.2
  have hx : xs.length ≤ cap := r.2
  obtain ⟨n, hn⟩ : ∃ n, xs.length - k = n + 1 := ⟨xs.length - k - 1, by omega⟩
  have e1 : readCell cap (cells xs) (xs.length - 1) = some xs[xs.length - 1] := by
    simp only [readCell, cells]
    rw [if_pos (by omega), List.getElem?_eq_getElem (by omega)]
  have e2 : ∀ v, construct cap (cells xs) (xs.length - 1) v = none := by
    intro v
    have : (cells xs (xs.length - 1)).isNone = false := by
      simp only [cells]; rw [List.getElem?_eq_getElem (show xs.length - 1 < xs.length by omega)]; rfl
    simp [construct, this]
  have e : relocBack cap (cells xs) xs.length xs.length (xs.length - k) = none := by
    rw [hn, relocBack, relocateAt, e1]
    simp only [e2, Option.bind_none]
  simp only [Impl.insertRet, hs, r.view.cap, List.length_nil, Nat.add_zero]
  rw [if_neg (by omega), if_pos hx]
  simp only [Impl.insertInPlace, Impl.modify, hs, List.length_nil, Nat.add_zero, r.mem, e, Option.map_none, Gives.of]

/-- `insert(position, 0, value)` and `insert(position, first, first)` are undefined at every position but the end of every vector; the standard says that
they do nothing. -/
theorem C104_insert_nothing_violated {c : CS V O} {a : AS V} (t : Tracks L c a) {x k : Nat} (hx : a.pos x = some k) (hk : k < a.s.1.length) (v : V) (first : Bool)
    (thr : Nat → Bool) (al : Nat → Bool) (y : Nat) (P : Bool → StdProg V R) :
    (StdProg.call (.insertCount x 0 (.fresh v) first thr al) y P).run I W mn c = none ∧
      (StdProg.call (.insertRange x [] al) y P).run I W mn c = none := by
  refine ⟨?_, ?_⟩
  · simp only [StdProg.run, Call.run, t.vars.at_ hx, Val.ref, Impl.inStorage, Bool.false_eq_true, if_false, List.range_zero, List.map_nil, insert_nothing t.rep hk, Gives.done]
  · simp only [StdProg.run, Call.run, t.vars.at_ hx, insert_nothing t.rep hk, Gives.done]

/-! ## Examples -/

/-- Deciding the precondition of a look, for the examples; no `at`. -/
def Look.legal (a : AS V) : Look V → Bool
  | .first _ | .last _ | .size | .capacity | .empty | .iterate => true
  | .move x d _ => (a.pos x).any fun (k : Nat) => decide (0 ≤ (k : Int) + d) && decide ((k : Int) + d ≤ a.s.1.length)
  | .diff x y => (a.pos x).isSome && (a.pos y).isSome
  | .deref x | .write x _ => (a.pos x).any fun (k : Nat) => decide (k < a.s.1.length)
  | .index i | .put i _ => decide (i < a.s.1.length)
  | .at' _ _ => false
  | .front | .back => decide (a.s.1 ≠ [])

instance (q : Cfg) (a : AS V) (m : Call V) (u : GOp V) : Decidable (m.Asks q a u) := by
  unfold Call.Asks; split <;> infer_instance

/-- Deciding the precondition of a program. -/
def StdProg.legal (q : Cfg) : StdProg V R → AS V → Bool
  | .ret _, _ => true
  | .look l k, a => l.legal a && (match l.mean a with | some x => (k x.1).legal q x.2 | none => true)
  | .call m y k, a => (match m.op a with | some u => decide (m.Asks q a u) | none => false) && (match m.mean q y a with | some x => (k x.1).legal q x.2 | none => true)

theorem Look.pre_of_legal {q : Cfg} {a : AS V} {l : Look V} (h : l.legal a = true) : l.Pre W q a := by
  cases l <;> simp only [Look.legal, Option.any_eq_true, Bool.and_eq_true, decide_eq_true_eq, Bool.false_eq_true] at h <;> exact h

theorem StdProg.pre_of_legal {q : Cfg} : ∀ {P : StdProg V R} {a : AS V}, P.legal q a = true → P.Pre W q a
  | .ret _, _, _ => trivial
  | .look l k, a, h => by
    simp only [StdProg.legal, Bool.and_eq_true] at h
    refine ⟨Look.pre_of_legal h.1, fun x hx => ?_⟩
    have := h.2
    rw [hx] at this
    exact pre_of_legal this
  | .call m y k, a, h => by
    simp only [StdProg.legal, Bool.and_eq_true] at h
    refine ⟨?_, fun x hx => ?_⟩
    · have := h.1
      split at this
      · rename_i u hu; exact ⟨u, hu, by simpa using this⟩
      · cases this
    · have := h.2
      rw [hx] at this
      exact pre_of_legal this

/-- A program: three elements, room for six, iterators to the first and the last element; the last element is inserted at the front (the argument is
an element of the vector, which is shifted meanwhile); the returned iterator is used; an element is erased by it. -/
def exStd : StdProg Nat (List Nat × Ans Nat × Ans Nat × Ans Nat) :=
  .call (.reserve 6 false) 9 fun _ => .call (.push (.fresh 1) false fun _ => false) 9 fun _ => .call (.push (.fresh 2) false fun _ => false) 9 fun _ =>
  .call (.emplaceBack (.fresh 3) false fun _ => false) 1 fun _ => .look (.first 0) fun _ => .call (.insert 0 (.elem 1) false fun _ => false) 2 fun _ =>
  .look (.deref 2) fun d => .look (.move 2 3 3) fun _ => .look (.diff 2 3) fun e => .call (.insertCount 3 2 (.elem 2) false (fun i => i == 1) fun _ => false) 4 fun b =>
  .call (.insertCount 3 2 (.elem 2) false (fun _ => false) fun _ => false) 4 fun _ => .look (.write 4 7) fun _ => .call (.erase 2) 5 fun _ =>
  .look (.deref 5) fun f => .look .iterate fun l =>
    match l with
    | .list xs => .ret (if b then xs else [], d, e, f)
    | _ => .ret ([], d, e, f)

/-- What it reads, with a vector and with an `inplace_vector`, and the meaning. -/
example : ((exStd.run (vec Nat 0 100) 64 0 ⟨⟨fun _ => none, 0⟩, { ptr := none, cap := 0, size := 0 }, fun _ => none⟩).map (·.1)) = some ([1, 2, 7, 3, 3], .val 3, .int 3, .val 1) ∧
    ((exStd.run (stat Nat 10) 64 10 ⟨⟨fun _ => none, 0⟩, ⟨fun _ => none, 0⟩, fun _ => none⟩).map (·.1)) = some ([1, 2, 7, 3, 3], .val 3, .int 3, .val 1) ∧
    ((exStd.mean (vcfg 0 100) ⟨([], 0), fun _ => none⟩).map (·.1)) = some ([1, 2, 7, 3, 3], .val 3, .int 3, .val 1) := by
  decide +kernel

/-- The hypotheses of `C104_vector_partial` and `C104_inplace_vector_partial` for it. -/
example : exStd.Pre 64 (Vec.lawful (V := Nat) 0 100 (Nat.zero_le _)).cfg ⟨([], 0), fun _ => none⟩ ∧
    exStd.Pre 64 (Stat.lawful (V := Nat) 10).cfg ⟨([], 10), fun _ => none⟩ := by
  exact ⟨StdProg.pre_of_legal (by decide +kernel), StdProg.pre_of_legal (by decide +kernel)⟩

/-- Using an iterator after a reallocation is undefined; after an insertion that had to be given up it is not. -/
example : ((StdProg.call (.push (.fresh 1) false fun _ => false) 9 fun _ => .look (.first 0) fun _ => .call (.push (.fresh 2) false fun _ => false) 9 fun _ =>
      .look (.deref 0) fun d => .ret d : StdProg Nat (Ans Nat)).run (vec Nat 0 100) 64 0 ⟨⟨fun _ => none, 0⟩, { ptr := none, cap := 0, size := 0 }, fun _ => none⟩).isNone = true ∧
    ((StdProg.call (.push (.fresh 1) false fun _ => false) 9 fun _ => .look (.first 0) fun _ => .call (.push (.fresh 2) false fun _ => true) 9 fun _ =>
      .look (.deref 0) fun d => .ret d : StdProg Nat (Ans Nat)).run (vec Nat 0 100) 64 0
      ⟨⟨fun _ => none, 0⟩, { ptr := none, cap := 0, size := 0 }, fun _ => none⟩).map (·.1) = some (.val 1) := by
  decide +kernel

/-- The hypotheses of `C104_insert_nothing_violated`: the vector with the elements 1, 2, 3 in a block of four slots and an iterator to the second one. -/
example : Tracks (Vec.lawful (V := Nat) 0 9 (by omega)) ⟨(aliasHeap 4).1, (aliasHeap 4).2, fun _ => some ⟨some 0, 1⟩⟩ ⟨([1, 2, 3], 4), fun _ => some 1⟩ := by
  refine ⟨⟨⟨.inr ⟨0, _, rfl, rfl, rfl, by decide, by decide⟩, rfl, rfl⟩, by decide⟩, ?_, fun x p hx => ?_⟩
  · intro b hb
    simp only [aliasHeap] at hb ⊢
    exact upd_other _ _ (by omega)
  · cases hx; exact ⟨rfl, by decide⟩

end Verif.Containers
