import Verif.Containers.StdVector
import Verif.Containers.VectorWorld

/-!
# Programs with several vectors and iterators of them (C108)

A program has any number of vectors and variables with iterators. Besides what it does with one vector (C104), it constructs, copies, moves, swaps, assigns and
destroys vectors, passes elements and ranges of one vector to functions of another, and reads and writes through iterators without saying into which vector
they point. An iterator is an address; the specification says which vector and which index it belongs to, so that moves and swaps take iterators along.
-/

namespace Verif.Containers

open Verif Impl Lawful Verif.Bounded

variable {V R : Type}

/-! ## Model -/

/-- What a program can do. `i`, `j` name vectors; `x`, `y`, `z`, `w` are variables with iterators. -/
inductive MStep (V : Type) where
  /-- something with vector `i` that does not change the number of its elements (C104) -/
  | look (i : Nat) (l : Look V)
  /-- a function of vector `i` (C104), what it returns goes to `y`. An argument may be an element of any vector. -/
  | call (i : Nat) (m : Call V) (y : Nat)
  /-- `w = v_i.insert(x, y, z)` with iterators `y`, `z` of another vector; `thr k` says that copying the `k`-th element throws -/
  | insertFrom (i x y z : Nat) (thr : Nat → Bool) (al : Nat → Bool) (w : Nat)
  /-- `*x` -/
  | peek (x : Nat)
  /-- `*x = v` -/
  | poke (x : Nat) (v : V)
  /-- assignment or swap -/
  | bin (i j : Nat) (b : VBin V)
  | make (i : Nat) (c : VCtor V)
  /-- copy or move construction of `i` from `j` -/
  | makeFrom (i j : Nat) (f : VFrom)
  | drop (i : Nat)

/-- A program; what it learns from a step is what it read, or if the step threw. -/
inductive MProg (V R : Type) where
  | ret (r : R)
  | step (s : MStep V) (k : Ans V → MProg V R)

/-- The state of a program: memory, the vectors, the variables. -/
structure MCS (V : Type) where
  h : Heap V
  obj : Nat → Option (Hdr V)
  its : Nat → Option Addr

/-- Reading through a pointer: the block has to be allocated and there has to be an object. Iterators are pointers (source/containers/std/vector.cpp 81-82). -/
def Heap.load (h : Heap V) (a : Addr) : Option V :=
  match a.block with
  | none => none
  | some b =>
    match h.blk b with
    | none => none
    | some B => readCell B.cap B.cell a.slot

/-- Assigning to an object through a pointer. -/
def Heap.store (h : Heap V) (a : Addr) (v : V) : Option (Heap V) :=
  match a.block with
  | none => none
  | some b =>
    match h.blk b with
    | none => none
    | some B => (readCell B.cap B.cell a.slot).map fun _ => ⟨upd h.blk b (some ⟨B.cap, upd B.cell a.slot (some v)⟩), h.next⟩

/-- Reading the elements between two pointers into the same block. -/
def Heap.loadRange (h : Heap V) (a b : Addr) : Option (List V) :=
  if a.block = b.block ∧ a.slot ≤ b.slot then
    match a.block with
    | none => if a.slot = b.slot then some [] else none
    | some n =>
      match h.blk n with
      | none => none
      | some B => readFrom B.cap B.cell a.slot (b.slot - a.slot)
  else none

/-- An argument of a function of a vector with header `o`: an element of another vector is an object that is not in this vector. It is read when the function is
called; the function does not touch the memory of other vectors, so reading it later would give the same. -/
def Val.seen (h : Heap V) (o : Hdr V) (its : Nat → Option Addr) : Val V → Val V
  | .fresh v => .fresh v
  | .elem x =>
    match its x with
    | none => .elem x
    | some a =>
      if a.block = o.ptr then .elem x
      else
        match h.load a with
        | some v => .fresh v
        | none => .elem x

/-- The same call with other arguments. -/
def Call.args (f : Val V → Val V) : Call V → Call V
  | .push c t al => .push (f c) t al
  | .emplaceBack c t al => .emplaceBack (f c) t al
  | .insert x c t al => .insert x (f c) t al
  | .emplace x c t al => .emplace x (f c) t al
  | .insertCount x n c first thr al => .insertCount x n (f c) first thr al
  | .resizeValue n c thr al => .resizeValue n (f c) thr al
  | m => m

/-- What a step that may throw tells the program. -/
def outcome (its : Nat → Option Addr) : Out (Heap V × (Nat → Option (Hdr V))) → Option (Ans V × MCS V)
  | .ok w => some (.flag false, ⟨w.1, w.2, its⟩)
  | .exn w => some (.flag true, ⟨w.1, w.2, its⟩)
  | .ub => none

/-- A function of one vector, in a program with several. -/
def MCS.one (mn mx W : Nat) (c : MCS V) (i : Nat) (m : Hdr V → Option (Call V)) (y : Nat) : Option (Ans V × MCS V) :=
  match c.obj i with
  | none => none
  | some o =>
    match m o with
    | none => none
    | some m =>
      match (StdProg.call m y fun b => .ret b : StdProg V Bool).run (vec V mn mx) W mn ⟨c.h, o, c.its⟩ with
      | none => none
      | some (b, c') => some (.flag b, ⟨c'.h, upd c.obj i (some c'.o), c'.its⟩)

/-- One step: source/containers/std/vector.cpp 88-128 and the functions of C104, source/containers/bounded_vector.cpp 46-138. -/
def MStep.run (mn mx W : Nat) (c : MCS V) : MStep V → Option (Ans V × MCS V)
  | .look i l =>
    match c.obj i with
    | none => none
    | some o =>
      match l.run (vec V mn mx) W ⟨c.h, o, c.its⟩ with
      | none => none
      | some (a, c') => some (a, ⟨c'.h, upd c.obj i (some c'.o), c'.its⟩)
  | .call i m y => c.one mn mx W i (fun o => some (m.args (Val.seen c.h o c.its))) y
  | .insertFrom i x y z thr al w =>
    c.one mn mx W i (fun _ =>
      match c.its y, c.its z with
      | some a, some b => (c.h.loadRange a b).map fun vs => .insertRange x (items vs thr) al
      | _, _ => none) w
  | .peek x =>
    match c.its x with
    | none => none
    | some a => (c.h.load a).map fun v => (.val v, c)
  | .poke x v =>
    match c.its x with
    | none => none
    | some a => (c.h.store a v).map fun h => (.unit, { c with h := h })
  | .bin i j b => outcome c.its ((vsys V mn mx).step (c.h, c.obj) (.bin i j b))
  | .make i k => outcome c.its ((vsys V mn mx).step (c.h, c.obj) (.make i k))
  | .makeFrom i j f => outcome c.its ((vsys V mn mx).step (c.h, c.obj) (.makeFrom i j f))
  | .drop i => outcome c.its ((vsys V mn mx).step (c.h, c.obj) (.drop i))

/-- Running a program; nothing if it is undefined. -/
def MProg.run (mn mx W : Nat) : MProg V R → MCS V → Option (R × MCS V)
  | .ret r, c => some (r, c)
  | .step s k, c =>
    match s.run mn mx W c with
    | some (a, c') => (k a).run mn mx W c'
    | none => none

/-! ## Specification

Sequences, and for every variable a sequence and an index in it, or that it must not be used. -/

/-- The vectors and the variables as the standard describes them. -/
structure MAS (V : Type) where
  obj : Nat → Option (VA V)
  pos : Nat → Option (Nat × Nat)

/-- The elements of vector `i`. -/
def MAS.elems (a : MAS V) (i : Nat) : List V := ((a.obj i).map VA.elems).getD []

/-- The vector `i` and the iterators into it. A vector that has been moved from must not be used here (see C25). -/
def MAS.of (a : MAS V) (i : Nat) : Option (AS V) :=
  match a.obj i with
  | some (.live xs cap _) => some ⟨(xs, cap), fun x => (a.pos x).bind fun p => if p.1 = i then some p.2 else none⟩
  | _ => none

/-- After the vector `i` has become `b`. -/
def MAS.put (a : MAS V) (i : Nat) (b : AS V) : MAS V where
  obj := upd a.obj i ((a.obj i).map fun
    | .live _ cap nul => .live b.s.1 b.s.2 (nulAfter cap nul b.s.2)
    | .moved => .moved)
  pos x :=
    match b.pos x with
    | some k => some (i, k)
    | none => (a.pos x).filter fun p => decide (p.1 ≠ i)

/-- An argument of a function of vector `i`: the value of an element of another vector. -/
def Val.of (a : MAS V) (i : Nat) : Val V → Val V
  | .fresh v => .fresh v
  | .elem x =>
    match a.pos x with
    | none => .elem x
    | some p => if p.1 = i then .elem x else
      match (a.elems p.1)[p.2]? with
      | some v => .fresh v
      | none => .elem x

/-- Iterators of `i` become iterators of `f i`, except those to the end; `none`: they must not be used any more. -/
def MAS.follow (a : MAS V) (f : Nat → Option Nat) (x : Nat) : Option (Nat × Nat) :=
  (a.pos x).bind fun p => if f p.1 = some p.1 then some p else
    if p.2 < (a.elems p.1).length then (f p.1).map fun j => (j, p.2) else none

/-- Where the elements of the vectors go. -/
def VBin.goes (i j : Nat) : VBin V → Nat → Option Nat
  | .move => fun k => if k = j then (if i = j then none else some i) else if k = i then none else some k
  | .swap => fun k => if k = i then some j else if k = j then some i else some k
  | .copy _ _ _ | .copyTrivial _ => fun k => if k = i ∧ i ≠ j then none else some k

/-- Where the elements go when `i` is constructed from `j`. -/
def VFrom.goes (i j : Nat) : VFrom → Nat → Option Nat
  | .move => fun k => if k = j then some i else some k
  | .copy _ _ => fun k => some k

/-- The vectors after a step that concerns whole vectors; `f` says where elements go. -/
def MAS.whole (mn mx : Nat) (a : MAS V) (op : WOp (GOp V) (VBin V) (VCtor V) VFrom) (f : Nat → Option Nat) : Option (Ans V × MAS V) :=
  some (.flag ((vsys V mn mx).spec a.obj op).2, ⟨((vsys V mn mx).spec a.obj op).1, a.follow f⟩)

/-- A call of a function of vector `i`. -/
def MAS.one (mn mx : Nat) (a : MAS V) (i : Nat) (m : Call V) (y : Nat) : Option (Ans V × MAS V) :=
  (a.of i).bind fun b => (m.mean (vcfg mn mx) y b).map fun r => (.flag r.1, a.put i r.2)

/-- The elements in the range between the iterators `y` and `z`, which must be of a vector other than `i`. -/
def MAS.range (a : MAS V) (i y z : Nat) : Option (List V) :=
  match a.pos y, a.pos z with
  | some p, some q => if p.1 = q.1 ∧ p.1 ≠ i ∧ p.2 ≤ q.2 then some (((a.elems p.1).take q.2).drop p.2) else none
  | _, _ => none

/-- The meaning of a step. -/
def MStep.mean (mn mx : Nat) (a : MAS V) : MStep V → Option (Ans V × MAS V)
  | .look i l => (a.of i).bind fun b => (l.mean b).map fun r => (r.1, a.put i r.2)
  | .call i m y => a.one mn mx i (m.args (Val.of a i)) y
  | .insertFrom i x y z thr al w => (a.range i y z).bind fun vs => a.one mn mx i (.insertRange x (items vs thr) al) w
  | .peek x => (a.pos x).bind fun p => (a.elems p.1)[p.2]?.map fun v => (.val v, a)
  | .poke x v => (a.pos x).bind fun p => (a.of p.1).map fun b => (.unit, a.put p.1 { b with s := (b.s.1.set p.2 v, b.s.2) })
  | .bin i j b => a.whole mn mx (.bin i j b) (b.goes i j)
  | .make i k => a.whole mn mx (.make i k) some
  | .makeFrom i j f => a.whole mn mx (.makeFrom i j f) (f.goes i j)
  | .drop i => a.whole mn mx (.drop i) fun k => if k = i then none else some k

/-- The meaning of a program. -/
def MProg.mean (mn mx : Nat) : MProg V R → MAS V → Option (R × MAS V)
  | .ret r, a => some (r, a)
  | .step s k, a => (s.mean mn mx a).bind fun x => (k x.1).mean mn mx x.2

/-- What the program has to ensure. -/
def MStep.Pre (mn mx W : Nat) (a : MAS V) : MStep V → Prop
  | .look i l => ∃ b, a.of i = some b ∧ l.Pre W (vcfg mn mx) b
  | .call i m _ => ∃ b, a.of i = some b ∧ (m.args (Val.of a i)).Pre (vcfg mn mx) b
  | .insertFrom i x y z thr al _ => ∃ b vs, a.of i = some b ∧ a.range i y z = some vs ∧ (Call.insertRange x (items vs thr) al).Pre (vcfg mn mx) b
  | .peek x | .poke x _ => ∃ p, a.pos x = some p ∧ p.2 < (a.elems p.1).length
  | .bin i j b => (vsys V mn mx).pre a.obj (.bin i j b)
  | .make i c => (vsys V mn mx).pre a.obj (.make i c)
  | .makeFrom i j f => (vsys V mn mx).pre a.obj (.makeFrom i j f)
  | .drop i => (vsys V mn mx).pre a.obj (.drop i)

/-- In the run that it has. -/
def MProg.Pre (mn mx W : Nat) : MProg V R → MAS V → Prop
  | .ret _, _ => True
  | .step s k, a => s.Pre mn mx W a ∧ ∀ x, s.mean mn mx a = some x → (k x.1).Pre mn mx W x.2

/-! ## Proofs -/

variable {mn mx W : Nat} {hmm : mn ≤ mx}

/-- Replacing one object in a program. -/
theorem Sys.Rel.single {O A U B C X : Type} {S : Sys V O A U B C X} {inv : Heap V → O → A → Prop} (L : S.Laws inv)
    {w : Heap V × (Nat → Option O)} {s : Nat → Option A} (r : S.Rel inv w s) {i : Nat} {o o' : O} {h' : Heap V} {a' : A} (hi : w.2 i = some o)
    (fr : Frame (S.own o) w.1 (S.own o') h') (hv : inv h' o' a') : S.Rel inv (h', upd w.2 i (some o')) (upd s i (some a')) := by
  refine r.change L (K := fun k => k = i) ?_ ?_ fr ?_ ?_ ?_ ?_
  · intro b; constructor
    · intro h; exact ⟨i, o, rfl, hi, h⟩
    · rintro ⟨_, t, rfl, h1, h2⟩; rw [hi] at h1; cases h1; exact h2
  · intro b; constructor
    · intro h; exact ⟨i, o', rfl, by simp, h⟩
    · rintro ⟨_, t, rfl, h1, h2⟩; rw [upd_same] at h1; cases h1; exact h2
  · intro k hk; exact ⟨upd_other _ _ hk, upd_other _ _ hk⟩
  · rintro k rfl; simp
  · rintro k t a rfl h1 h2; rw [upd_same] at h1 h2; cases h1; cases h2; exact hv
  · rintro k j t u rfl rfl h1 h2 h3; exact absurd rfl h3

/-- The state of the program is as specified. -/
structure MTracks (mn mx : Nat) (hmm : mn ≤ mx) (c : MCS V) (a : MAS V) : Prop where
  rel : (vsys V mn mx).Rel (vinv mn mx hmm) (c.h, c.obj) a.obj
  vars : ∀ x i k, a.pos x = some (i, k) → ∃ o xs cap nul, c.obj i = some o ∧ a.obj i = some (.live xs cap nul) ∧ c.its x = some ((vec V mn mx).addr o k) ∧ k ≤ xs.length

theorem MAS.of_some {a : MAS V} {i : Nat} {b : AS V} (h : a.of i = some b) :
    ∃ xs cap nul, a.obj i = some (.live xs cap nul) ∧ b = ⟨(xs, cap), fun x => (a.pos x).bind fun p => if p.1 = i then some p.2 else none⟩ := by
  simp only [MAS.of] at h
  split at h
  · rename_i xs cap nul e; cases h; exact ⟨xs, cap, nul, e, rfl⟩
  · cases h

/-- The part of the program that concerns vector `i`. -/
theorem MTracks.at_ {c : MCS V} {a : MAS V} (t : MTracks mn mx hmm c a) {i : Nat} {b : AS V} (hb : a.of i = some b) :
    ∃ o xs cap nul, c.obj i = some o ∧ a.obj i = some (.live xs cap nul) ∧ b.s = (xs, cap) ∧ vinv mn mx hmm c.h o (.live xs cap nul) ∧
      Tracks (Vec.lawful mn mx hmm) ⟨c.h, o, c.its⟩ b := by
  obtain ⟨xs, cap, nul, h1, rfl⟩ := MAS.of_some hb
  obtain ⟨o, ho, v⟩ := t.rel.obj h1
  refine ⟨o, xs, cap, nul, ho, h1, rfl, v, v.1, t.rel.fresh, fun x p hx => ?_⟩
  simp only [Option.bind_eq_some_iff] at hx
  obtain ⟨⟨j, k⟩, hx1, hx2⟩ := hx
  split at hx2
  · rename_i hji
    simp only at hji
    subst hji
    cases hx2
    obtain ⟨o', xs', cap', nul', e1, e2, e3, e4⟩ := t.vars x j k hx1
    have ho' : c.obj j = some o := ho
    rw [ho'] at e1; cases e1
    rw [h1] at e2; cases e2
    exact ⟨e3, e4⟩
  · cases hx2

/-- The rest of the program does not notice what happens to vector `i`. -/
theorem MTracks.put {c : MCS V} {a : MAS V} (t : MTracks mn mx hmm c a) {i : Nat} {o : Hdr V} {xs : List V} {cap : Nat} {nul : Bool} (ho : c.obj i = some o)
    (ha : a.obj i = some (.live xs cap nul)) {c' : CS V (Hdr V)} {b' : AS V} (t' : Tracks (Vec.lawful mn mx hmm) c' b')
    (fr : Frame ((vec V mn mx).own o) c.h ((vec V mn mx).own c'.o) c'.h) (pr : PtrRule (vec V mn mx) c.h o c'.o b'.s.2)
    (hk : ∀ x, b'.pos x = none → c'.its x = c.its x) :
    MTracks mn mx hmm ⟨c'.h, upd c.obj i (some c'.o), c'.its⟩ (a.put i b') := by
  obtain ⟨o1, ho1, v⟩ := t.rel.obj ha
  rw [show c.obj i = some o1 from ho1] at ho; cases ho
  obtain ⟨h2, o2, e, v2, -⟩ := Vec.inv_good v (x := .ok (c'.h, c'.o)) (s := (b'.s, false)) ⟨c'.h, c'.o, rfl, t'.rep, fr, pr⟩
  cases e
  refine ⟨?_, fun x j k hx => ?_⟩
  · simp only [MAS.put, ha, Option.map_some]
    exact t.rel.single (Vec.laws mn mx hmm) ho1 fr v2
  · simp only [MAS.put] at hx
    cases hb : b'.pos x with
    | some p =>
      rw [hb] at hx
      simp only [Option.some.injEq, Prod.mk.injEq] at hx
      obtain ⟨rfl, rfl⟩ := hx
      obtain ⟨e1, e2⟩ := t'.vars x p hb
      exact ⟨c'.o, b'.s.1, b'.s.2, nulAfter cap nul b'.s.2, by simp, by simp [MAS.put, ha], e1, e2⟩
    | none =>
      rw [hb] at hx
      simp only [Option.filter_eq_some_iff, decide_eq_true_eq] at hx
      obtain ⟨hx1, hx2⟩ := hx
      obtain ⟨o', xs', cap', nul', e1, e2, e3, e4⟩ := t.vars x j k hx1
      refine ⟨o', xs', cap', nul', ?_, ?_, ?_, e4⟩
      · simp only; rw [upd_other _ _ hx2]; exact e1
      · simp only [MAS.put]; rw [upd_other _ _ hx2]; exact e2
      · exact (hk x hb).trans e3

/-- A look assigns the variables that it says. -/
theorem Look.keeps_vars {c c' : CS V (Hdr V)} {b b' : AS V} {l : Look V} {x y : Ans V} (h1 : l.run (vec V mn mx) W c = some (x, c')) (h2 : l.mean b = some (y, b')) :
    (∀ z, b'.pos z = none → c'.its z = c.its z) ∧ b'.s.2 = b.s.2 := by
  cases l <;> simp only [Look.run, Look.mean, Option.some.injEq, Prod.mk.injEq, Option.map_eq_some_iff, Option.bind_eq_some_iff] at h1 h2
  case first =>
    obtain ⟨-, rfl⟩ := h1; obtain ⟨-, rfl⟩ := h2
    refine ⟨fun z hz => ?_, rfl⟩
    simp only [AS.set, CS.set] at *
    split at hz
    · cases hz
    · rename_i hn; rw [if_neg hn]
  case last =>
    obtain ⟨-, rfl⟩ := h1; obtain ⟨-, rfl⟩ := h2
    refine ⟨fun z hz => ?_, rfl⟩
    simp only [AS.set, CS.set] at *
    split at hz
    · cases hz
    · rename_i hn; rw [if_neg hn]
  case move x d y =>
    obtain ⟨k, -, -, rfl⟩ := h2
    refine ⟨fun z hz => ?_, rfl⟩
    split at h1
    · cases h1
    · split at h1
      · cases h1
        simp only [AS.set, CS.set] at *
        split at hz
        · cases hz
        · rename_i hn; rw [if_neg hn]
      · cases h1
  case diff =>
    obtain ⟨k, -, j, -, -, rfl⟩ := h2
    split at h1 <;> cases h1
    exact ⟨fun _ _ => rfl, rfl⟩
  case deref =>
    obtain ⟨k, -, j, -, -, rfl⟩ := h2
    split at h1
    · cases h1
    · simp only [Option.map_eq_some_iff, Prod.mk.injEq] at h1
      obtain ⟨_, -, -, rfl⟩ := h1
      exact ⟨fun _ _ => rfl, rfl⟩
  case write =>
    obtain ⟨k, -, -, rfl⟩ := h2
    split at h1
    · cases h1
    · simp only [Option.map_eq_some_iff, Prod.mk.injEq] at h1
      obtain ⟨_, -, -, rfl⟩ := h1
      exact ⟨fun _ _ => rfl, rfl⟩
  case put =>
    obtain ⟨-, rfl⟩ := h2
    obtain ⟨_, -, -, rfl⟩ := h1
    exact ⟨fun _ _ => rfl, rfl⟩
  case at' =>
    obtain ⟨-, rfl⟩ := h2
    split at h1 <;> cases h1
    · exact ⟨fun _ _ => rfl, rfl⟩
    · exact ⟨fun _ _ => rfl, rfl⟩
  case size | empty =>
    obtain ⟨-, rfl⟩ := h1; obtain ⟨-, rfl⟩ := h2; exact ⟨fun _ _ => rfl, rfl⟩
  case capacity | iterate =>
    obtain ⟨_, -, -, rfl⟩ := h1; obtain ⟨-, rfl⟩ := h2; exact ⟨fun _ _ => rfl, rfl⟩
  all_goals
    obtain ⟨_, -, -, rfl⟩ := h1; obtain ⟨_, -, -, rfl⟩ := h2; exact ⟨fun _ _ => rfl, rfl⟩

theorem put_ptr (h : Heap V) (o : Hdr V) (m : Cells V) : (Vec.put h o m).2.ptr = o.ptr := by
  simp only [Vec.put]
  split
  · rfl
  · split <;> rfl

theorem assignAt_ptr {h : Heap V} {o : Hdr V} {k : Nat} {v : V} {s : Heap V × Hdr V} (e : (vec V mn mx).assignAt h o k v = some s) : s.2.ptr = o.ptr := by
  simp only [Impl.assignAt] at e
  split at e
  · cases e
  · cases e; exact put_ptr _ _ _

/-- A look leaves the storage where it is. -/
theorem Look.keeps_ptr {c c' : CS V (Hdr V)} {l : Look V} {x : Ans V} (h1 : l.run (vec V mn mx) W c = some (x, c')) : c'.o.ptr = c.o.ptr := by
  cases l <;> simp only [Look.run, Option.some.injEq, Prod.mk.injEq, Option.map_eq_some_iff] at h1
  case first | last | size | empty => obtain ⟨-, rfl⟩ := h1; rfl
  case move =>
    split at h1
    · cases h1
    · split at h1 <;> cases h1; rfl
  case diff => split at h1 <;> cases h1; rfl
  case deref =>
    split at h1
    · cases h1
    · simp only [Option.map_eq_some_iff, Prod.mk.injEq] at h1
      obtain ⟨_, -, -, rfl⟩ := h1; rfl
  case write =>
    split at h1
    · cases h1
    · simp only [Option.map_eq_some_iff, Prod.mk.injEq] at h1
      obtain ⟨_, e, -, rfl⟩ := h1
      exact assignAt_ptr e
  case put =>
    obtain ⟨_, e, -, rfl⟩ := h1
    exact assignAt_ptr e
  case at' => split at h1 <;> cases h1 <;> rfl
  all_goals obtain ⟨_, -, -, rfl⟩ := h1; rfl

/-- A call on one vector: what C104 says, where the storage is, and which variables are assigned. -/
theorem Call.one_good (hW : 64 ≤ W) (hm : (mx : Int) < 2 ^ (W - 1)) {c : CS V (Hdr V)} {b : AS V} (t : Tracks (Vec.lawful mn mx hmm) c b) {m : Call V} (y : Nat)
    (hp : m.Pre (vcfg mn mx) b) :
    ∃ e b' c', m.mean (vcfg mn mx) y b = some (e, b') ∧ (StdProg.call m y fun b => .ret b : StdProg V Bool).run (vec V mn mx) W mn c = some (e, c') ∧
      Tracks (Vec.lawful mn mx hmm) c' b' ∧ Frame ((vec V mn mx).own c.o) c.h ((vec V mn mx).own c'.o) c'.h ∧
      PtrRule (vec V mn mx) c.h c.o c'.o b'.s.2 ∧ ∀ x, b'.pos x = none → c'.its x = c.its x := by
  have hfix : (vec V mn mx).reservable = false → mn = (vec V mn mx).mx := by
    intro h; have h : decide (mn ≠ mx) = false := h
    show mn = mx
    simpa using h
  obtain ⟨e, b', c', h1, h2, h3, h4⟩ := C104_program_partial (L := Vec.lawful (V := V) mn mx hmm) hW hm hfix
    (StdProg.call m y fun b => .ret b : StdProg V Bool) t ⟨hp, fun _ _ => trivial⟩
  obtain ⟨u, hu, hask⟩ := hp
  obtain ⟨h', o', e1, r1, f1, p1⟩ := Call.good (L := Vec.lawful (V := V) mn mx hmm) t.rep t.fresh t.vars hfix m hu hask
  have hmean : m.mean (vcfg mn mx) y b = some (e, b') := by
    simp only [StdProg.mean] at h1
    have h1 : ((m.mean (vcfg mn mx) y b).bind fun x => some (x.1, x.2)) = some (e, b') := h1
    simpa using h1
  have hcfg : (Vec.lawful (V := V) mn mx hmm).cfg = vcfg mn mx := rfl
  have hb' : b'.s = (m.end_ (vcfg mn mx) u b.s).1 := by
    have h := hmean
    simp only [Call.mean, hu, Option.map_some, Option.some.injEq] at h
    simp only [Call.end_]
    by_cases he : m.early (vcfg mn mx).mx = true
    · rw [if_pos he] at h; rw [if_pos he]; cases h; rfl
    · rw [if_neg he] at h; rw [if_neg he]; cases h; rfl
  rw [hcfg] at e1 p1
  refine ⟨e, b', c', hmean, h2, h3, h4, ?_, fun x hx => ?_⟩
  · have ho : c'.o = o' := by
      simp only [StdProg.run, e1] at h2
      cases hs : (m.end_ (vcfg mn mx) u b.s).2 <;> rw [hs] at h2 <;> simp only [if_true, Bool.false_eq_true, if_false] at h2
      · cases hg : m.gives b <;> rw [hg] at h2 <;> cases h2 <;> rfl
      · cases h2; rfl
    rw [ho, hb']; exact p1
  · simp only [StdProg.run, e1] at h2
    cases hs : (m.end_ (vcfg mn mx) u b.s).2 <;> rw [hs] at h2 <;> simp only [if_true, Bool.false_eq_true, if_false] at h2
    · cases hg : m.gives b with
      | none => rw [hg] at h2; cases h2; rfl
      | some p =>
        rw [hg] at h2
        simp only [Option.map_some, Option.some.injEq, Prod.mk.injEq] at h2
        obtain ⟨-, rfl⟩ := h2
        simp only [CS.set]
        by_cases hxy : x = y
        · exfalso
          have hne : ¬ m.early (vcfg mn mx).mx = true := by
            intro he; simp only [Call.end_, if_pos he] at hs; cases hs
          simp only [Call.end_, if_neg hne] at hs
          simp only [Call.mean, hu, Option.map_some, if_neg hne, Option.some.injEq, Prod.mk.injEq] at hmean
          rw [← hmean.2] at hx
          simp only at hx
          rw [if_pos ⟨hxy, hs, by simp [hg]⟩, hg] at hx
          cases hx
        · rw [if_neg hxy]
    · cases h2; rfl

/-- One function of vector `i` in a program. -/
theorem MTracks.one (hW : 64 ≤ W) (hm : (mx : Int) < 2 ^ (W - 1)) {c : MCS V} {a : MAS V} (t : MTracks mn mx hmm c a) {i : Nat} {b : AS V} (hb : a.of i = some b)
    {m : Call V} (y : Nat) (hp : m.Pre (vcfg mn mx) b) {f : Hdr V → Option (Call V)} (hf : ∀ o, c.obj i = some o → f o = some m) :
    ∃ x a' c', a.one mn mx i m y = some (x, a') ∧ c.one mn mx W i f y = some (x, c') ∧ MTracks mn mx hmm c' a' := by
  obtain ⟨o, xs, cap, nul, ho, ha, hs, v, t1⟩ := t.at_ hb
  obtain ⟨e, b', c', h1, h2, h3, h4, h5, h6⟩ := Call.one_good hW hm t1 y hp
  refine ⟨.flag e, a.put i b', ⟨c'.h, upd c.obj i (some c'.o), c'.its⟩, ?_, ?_, t.put ho ha h3 h4 h5 h6⟩
  · simp only [MAS.one, hb, Option.bind_some, h1, Option.map_some]
  · simp only [MCS.one, ho, hf o ho, h2]

/-- What is behind an iterator. -/
theorem MTracks.load {c : MCS V} {a : MAS V} (t : MTracks mn mx hmm c a) {x j k : Nat} (hx : a.pos x = some (j, k)) (hk : k < (a.elems j).length) :
    ∃ o xs cap nul n, c.obj j = some o ∧ a.obj j = some (.live xs cap nul) ∧ a.elems j = xs ∧ o.ptr = some n ∧ c.its x = some ⟨some n, k⟩ ∧
      c.h.blk n = some ⟨cap, cells xs⟩ ∧ xs.length ≤ cap := by
  obtain ⟨o, xs, cap, nul, e1, e2, e3, e4⟩ := t.vars x j k hx
  have v := t.rel.good j o _ e1 e2
  have hm : Vec.mem c.h o = (cap, cells xs) := v.1.mem
  have hel : a.elems j = xs := by simp only [MAS.elems, e2]; rfl
  rw [hel] at hk
  have hl : xs.length ≤ cap := v.1.2
  obtain ⟨p, oc, n, vd⟩ := o
  cases p with
  | none =>
    have := congrArg Prod.fst hm
    have : 0 = cap := this
    omega
  | some p =>
    refine ⟨_, xs, cap, nul, p, e1, e2, hel, rfl, e3, ?_, hl⟩
    simp only [Vec.mem] at hm
    cases hb : c.h.blk p with
    | none => rw [hb] at hm; have : 0 = cap := congrArg Prod.fst hm; omega
    | some B =>
      obtain ⟨Bc, Bm⟩ := B
      rw [hb] at hm
      simp only [Prod.mk.injEq] at hm
      rw [hm.1, hm.2]

theorem MTracks.val {c : MCS V} {a : MAS V} (t : MTracks mn mx hmm c a) {x j k : Nat} (hx : a.pos x = some (j, k)) {v : V} (hv : (a.elems j)[k]? = some v) :
    ∃ p, c.its x = some p ∧ c.h.load p = some v ∧ ∀ i o, c.obj i = some o → i ≠ j → p.block ≠ o.ptr := by
  have hk := (List.getElem?_eq_some_iff.1 hv).1
  obtain ⟨o, xs, cap, nul, n, e1, e2, e3, e4, e5, e6, e7⟩ := t.load hx hk
  rw [e3] at hk hv
  refine ⟨_, e5, ?_, fun i o' ho' hij hb => ?_⟩
  · simp only [Heap.load, e6, readCell, cells, if_pos (show k < cap by omega), hv]
  · exact t.rel.apart i j o' o ho' e1 hij n hb.symm e4

/-- Arguments are what the specification says. -/
theorem MTracks.seen {c : MCS V} {a : MAS V} (t : MTracks mn mx hmm c a) {i : Nat} {o : Hdr V} (ho : c.obj i = some o) {b : AS V} (hb : a.of i = some b) {v : Val V} {w : V}
    (hv : (v.of a i).now b = some w) : v.seen c.h o c.its = v.of a i := by
  obtain ⟨xs, cap, nul, h1, rfl⟩ := MAS.of_some hb
  cases v with
  | fresh v => rfl
  | elem x =>
    cases hx : a.pos x with
    | none => simp only [Val.of, hx, Val.now, Option.bind_none] at hv; cases hv
    | some p =>
      obtain ⟨j, k⟩ := p
      simp only [Val.of, hx] at hv ⊢
      by_cases hj : j = i
      · subst hj
        simp only [if_true] at hv ⊢
        obtain ⟨o', xs', cap', nul', e1, e2, e3, e4⟩ := t.vars x j k hx
        rw [ho] at e1; cases e1
        simp only [Val.seen, e3]
        rw [if_pos (show ((vec V mn mx).addr o k).block = o.ptr from rfl)]
      · simp only [if_neg hj] at hv ⊢
        cases hg : (a.elems j)[k]? with
        | none => simp only [hg, Val.now, hx, Option.bind_some, if_neg hj, Option.bind_none] at hv; cases hv
        | some u =>
          obtain ⟨p, e1, e2, e3⟩ := t.val hx hg
          simp only [Val.seen, e1, if_neg (e3 i o ho (Ne.symm hj)), e2]

theorem Call.args_congr {f g : Val V → Val V} {b : AS V} {m : Call V} {u : GOp V} (h : (m.args f).op b = some u) (hfg : ∀ v w, (f v).now b = some w → g v = f v) :
    m.args g = m.args f := by
  cases m <;> simp only [Call.args, Call.op, Option.map_eq_some_iff, Option.bind_eq_some_iff] at h ⊢
  case push | emplaceBack | resizeValue => obtain ⟨w, hw, -⟩ := h; rw [hfg _ w hw]
  case insert | emplace | insertCount => obtain ⟨_, -, w, hw, -⟩ := h; rw [hfg _ w hw]

/-- A range of another vector. -/
theorem MTracks.range {c : MCS V} {a : MAS V} (t : MTracks mn mx hmm c a) {i y z : Nat} {vs : List V} (h : a.range i y z = some vs) :
    ∃ p q, c.its y = some p ∧ c.its z = some q ∧ c.h.loadRange p q = some vs := by
  simp only [MAS.range] at h
  split at h
  · rename_i p q hy hz
    obtain ⟨j, k⟩ := p
    obtain ⟨j', l⟩ := q
    simp only at h
    split at h
    · rename_i hc
      obtain ⟨rfl, -, hkl⟩ := hc
      cases h
      obtain ⟨o, xs, cap, nul, e1, e2, e3, e4⟩ := t.vars y j k hy
      obtain ⟨o', xs', cap', nul', d1, d2, d3, d4⟩ := t.vars z j l hz
      rw [e1] at d1; cases d1
      rw [e2] at d2; cases d2
      refine ⟨_, _, e3, d3, ?_⟩
      have hel : a.elems j = xs := by simp only [MAS.elems, e2]; rfl
      have v := t.rel.good j o _ e1 e2
      have hm : Vec.mem c.h o = (cap, cells xs) := v.1.mem
      have hl : xs.length ≤ cap := v.1.2
      simp only [Heap.loadRange, Impl.addr]
      rw [if_pos ⟨trivial, hkl⟩, hel]
      show (match o.ptr with | none => if k = l then some [] else none | some n => _) = _
      cases hp : o.ptr with
      | none =>
        rw [Vec.mem_none hp] at hm
        have : 0 = cap := congrArg Prod.fst hm
        have hkl : k = l := by omega
        rw [if_pos hkl, List.drop_eq_nil_of_le (by simp; omega)]
      | some n =>
        have hbn : c.h.blk n = some ⟨cap, cells xs⟩ := by
          have ow := (Vec.laws mn mx hmm).owned (b := n) v hp
          cases hb : c.h.blk n with
          | none => exact absurd hb ow
          | some B =>
            obtain ⟨Bc, Bm⟩ := B
            rw [Vec.mem_some hp hb] at hm
            simp only [Prod.mk.injEq] at hm
            rw [hm.1, hm.2]
        simp only [hbn]
        have hr := readFrom_eq cap (xs.take l) (by simp; omega) (l - k) k (by simp; omega)
        have key : ∀ n s, s + n ≤ l → readFrom cap (cells (xs.take l)) s n = readFrom cap (cells xs) s n := by
          intro n
          induction n with
          | zero => intro s _; rfl
          | succ n ih =>
            intro s hs
            simp only [readFrom, readCell, cells, ih (s + 1) (by omega)]
            rw [List.getElem?_take_of_lt (by omega)]
        rw [key _ _ (by omega)] at hr
        exact hr
    · cases h
  · cases h

/-- Steps that concern whole vectors: the vectors. -/
theorem MTracks.whole {c : MCS V} {a : MAS V} (t : MTracks mn mx hmm c a) {op : WOp (GOp V) (VBin V) (VCtor V) VFrom} (hp : (vsys V mn mx).pre a.obj op) (f : Nat → Option Nat)
    (hf : ∀ h' obj', ((vsys V mn mx).step (c.h, c.obj) op = Out.of ((vsys V mn mx).spec a.obj op).2 (h', obj')) →
      ∀ i j o xs cap nul, c.obj i = some o → a.obj i = some (.live xs cap nul) → f i = some j → (xs ≠ [] ∨ i = j) →
        ∃ o' cap' nul', obj' j = some o' ∧ ((vsys V mn mx).spec a.obj op).1 j = some (.live xs cap' nul') ∧ o'.ptr = o.ptr) :
    ∃ x a' c', a.whole mn mx op f = some (x, a') ∧ outcome c.its ((vsys V mn mx).step (c.h, c.obj) op) = some (x, c') ∧ MTracks mn mx hmm c' a' := by
  obtain ⟨⟨h', obj'⟩, e, r⟩ := Sys.step_ok (Vec.laws mn mx hmm) (c.h, c.obj) a.obj op t.rel hp
  refine ⟨_, _, ⟨h', obj', c.its⟩, rfl, ?_, r, fun x j k hx => ?_⟩
  · rw [e]; cases ((vsys V mn mx).spec a.obj op).2 <;> rfl
  · simp only [MAS.follow, Option.bind_eq_some_iff] at hx
    obtain ⟨⟨i, l⟩, hx1, hx2⟩ := hx
    obtain ⟨o, xs, cap, nul, e1, e2, e3, e4⟩ := t.vars x i l hx1
    have hel : a.elems i = xs := by simp only [MAS.elems, e2]; rfl
    by_cases hfi : f i = some i
    · simp only [hfi, if_true, Option.some.injEq, Prod.mk.injEq] at hx2
      obtain ⟨rfl, rfl⟩ := hx2
      obtain ⟨o', cap', nul', d1, d2, d3⟩ := hf h' obj' e i i o xs cap nul e1 e2 hfi (.inr rfl)
      exact ⟨o', xs, cap', nul', d1, d2, by rw [e3]; simp only [Impl.addr]; rw [show (vec V mn mx).ptr o' = (vec V mn mx).ptr o from d3], e4⟩
    · simp only [if_neg hfi, hel] at hx2
      split at hx2
      · rename_i hl
        simp only [Option.map_eq_some_iff, Prod.mk.injEq] at hx2
        obtain ⟨j', hj, rfl, rfl⟩ := hx2
        obtain ⟨o', cap', nul', d1, d2, d3⟩ := hf h' obj' e i j' o xs cap nul e1 e2 hj (.inl (by rintro rfl; simp at hl))
        exact ⟨o', xs, cap', nul', d1, d2, by rw [e3]; simp only [Impl.addr]; rw [show (vec V mn mx).ptr o' = (vec V mn mx).ptr o from d3], e4⟩
      · cases hx2

/-- What a step with two vectors leaves. -/
theorem step_bin {h h' : Heap V} {obj obj' : Nat → Option (Hdr V)} {i j : Nat} {b : VBin V} {f : Bool} {o t : Hdr V} (hi : obj i = some o) (hj : obj j = some t) (hij : i ≠ j)
    (e : (vsys V mn mx).step (h, obj) (.bin i j b) = Out.of f (h', obj')) :
    ∃ r, (Vec.bin mn mx b h o t = .ok r ∨ Vec.bin mn mx b h o t = .exn r) ∧ obj' = upd (upd obj i (some r.2.1)) j (some r.2.2) := by
  simp only [Sys.step, hi, hj, if_neg hij] at e
  show ∃ r, ((vsys V mn mx).bin b h o t = .ok r ∨ (vsys V mn mx).bin b h o t = .exn r) ∧ _
  cases hb : (vsys V mn mx).bin b h o t with
  | ok r => rw [hb] at e; cases f <;> cases e; exact ⟨r, .inl rfl, rfl⟩
  | exn r => rw [hb] at e; cases f <;> cases e; exact ⟨r, .inr rfl, rfl⟩
  | ub => rw [hb] at e; cases f <;> cases e

theorem bin_move {h : Heap V} {o t : Hdr V} {r : Heap V × Hdr V × Hdr V} (e : Vec.bin mn mx .move h o t = .ok r ∨ Vec.bin mn mx .move h o t = .exn r) : r.2.1.ptr = t.ptr := by
  simp only [Vec.bin] at e
  cases hm : Vec.moveAssign h o t with
  | none => rw [hm] at e; rcases e with e | e <;> cases e
  | some q =>
    rw [hm] at e
    simp only [Vec.moveAssign] at hm
    split at hm
    · cases hm
    · split at hm
      · cases hm
      · cases hm
        rcases e with e | e <;> cases e
        rfl

theorem bin_copy {h : Heap V} {o t : Hdr V} {b : VBin V} {r : Heap V × Hdr V × Hdr V} (hb : (∃ thr left al, b = .copy thr left al) ∨ ∃ al, b = .copyTrivial al)
    (e : Vec.bin mn mx b h o t = .ok r ∨ Vec.bin mn mx b h o t = .exn r) : r.2.2 = t := by
  have key : ∀ {z : Out (Heap V × Hdr V)}, z.bind (fun r => .ok (r.1, r.2, t)) (fun r => (r.1, r.2, t)) = .ok r ∨
      z.bind (fun r => .ok (r.1, r.2, t)) (fun r => (r.1, r.2, t)) = .exn r → r.2.2 = t := by
    intro z hz
    cases z <;> rcases hz with hz | hz <;> cases hz <;> rfl
  rcases hb with ⟨thr, left, al, rfl⟩ | ⟨al, rfl⟩ <;> simp only [Vec.bin] at e
  · split at e
    · rcases e with e | e <;> cases e
    · exact key e
  · split at e
    · rcases e with e | e <;> cases e
    · exact key e

/-- One step of a program. -/
theorem MStep.good (hW : 64 ≤ W) (hm : (mx : Int) < 2 ^ (W - 1)) {c : MCS V} {a : MAS V} (t : MTracks mn mx hmm c a) (s : MStep V) (hp : s.Pre mn mx W a) :
    ∃ x a' c', s.mean mn mx a = some (x, a') ∧ s.run mn mx W c = some (x, c') ∧ MTracks mn mx hmm c' a' := by
  cases s with
  | look i l =>
    obtain ⟨b, hb, hp⟩ := hp
    obtain ⟨o, xs, cap, nul, ho, ha, hs, v, t1⟩ := t.at_ hb
    obtain ⟨x, b', c', h1, h2, h3, h4⟩ := Look.good (L := Vec.lawful (V := V) mn mx hmm) hW hm t1 l hp
    obtain ⟨k1, k2⟩ := Look.keeps_vars h2 h1
    have k3 := Look.keeps_ptr h2
    have hcap : (Vec.mem c.h o).1 = cap := by
      have hm : Vec.mem c.h o = (cap, cells xs) := v.1.mem
      rw [hm]
    have pr : PtrRule (vec V mn mx) c.h o c'.o b'.s.2 := by
      refine ⟨fun _ => k3, fun e ne => absurd ?_ ne⟩
      rw [k2, hs] at e
      exact hcap.trans e
    exact ⟨x, _, _, by simp only [MStep.mean, hb, Option.bind_some, h1, Option.map_some], by simp only [MStep.run, ho, h2], t.put ho ha h3 h4 pr k1⟩
  | call i m y =>
    obtain ⟨b, hb, hp⟩ := hp
    simp only [MStep.mean, MStep.run]
    refine t.one hW hm hb y hp fun o ho => ?_
    obtain ⟨u, hu, -⟩ := hp
    rw [Call.args_congr hu fun v w hv => t.seen ho hb hv]
  | insertFrom i x y z thr al w =>
    obtain ⟨b, vs, hb, hr, hp⟩ := hp
    obtain ⟨p, q, e1, e2, e3⟩ := t.range hr
    obtain ⟨r, a', c', h1, h2, h3⟩ := t.one (c := c) hW hm hb w hp (f := fun _ =>
      match c.its y, c.its z with
      | some a, some b => (c.h.loadRange a b).map fun vs => .insertRange x (items vs thr) al
      | _, _ => none) (fun o _ => by simp only [e1, e2, e3, Option.map_some])
    exact ⟨r, a', c', by simp only [MStep.mean, hr, Option.bind_some, h1], h2, h3⟩
  | peek x =>
    obtain ⟨⟨j, k⟩, hx, hk⟩ := hp
    have hg : (a.elems j)[k]? = some ((a.elems j)[k]) := List.getElem?_eq_getElem hk
    obtain ⟨p, e1, e2, -⟩ := t.val hx hg
    exact ⟨_, a, c, by simp only [MStep.mean, hx, Option.bind_some, hg, Option.map_some]; rfl, by simp only [MStep.run, e1, e2, Option.map_some], t⟩
  | poke x v =>
    obtain ⟨⟨j, k⟩, hx, hk⟩ := hp
    simp only at hk
    obtain ⟨o, xs, cap, nul, n, e1, e2, e3, e4, e5, e6, e7⟩ := t.load hx hk
    rw [e3] at hk
    have hb : ∃ b, a.of j = some b := by simp only [MAS.of, e2]; exact ⟨_, rfl⟩
    obtain ⟨b, hb⟩ := hb
    obtain ⟨o', xs', cap', nul', ho, ha, hs, vi, t1⟩ := t.at_ hb
    rw [e1] at ho; cases ho
    rw [e2] at ha; cases ha
    have hkb : k < b.s.1.length := by rw [hs]; exact hk
    obtain ⟨s, h1, h2, h3⟩ := t1.assign hkb v
    have hst : s = (⟨upd c.h.blk n (some ⟨cap, upd (cells xs) k (some v)⟩), c.h.next⟩, o) := by
      have h1' := h1
      simp only [Impl.assignAt] at h1'
      split at h1'
      · cases h1'
      · cases h1'
        show Vec.put c.h o (upd (Vec.mem c.h o).2 k (some v)) = _
        have hme := Vec.mem_some e4 e6
        rw [hme]
        simp only [Vec.put, e4, e6]
    have hptr : s.2.ptr = o.ptr := assignAt_ptr h1
    have hcap : (Vec.mem c.h o).1 = cap := by rw [Vec.mem_some e4 e6]
    have pr : PtrRule (vec V mn mx) c.h o s.2 b.s.2 := by
      refine ⟨fun _ => hptr, fun e ne => absurd ?_ ne⟩
      rw [hs] at e
      exact hcap.trans e
    have t2 := t.put (c' := ⟨s.1, s.2, c.its⟩) e1 e2 h2 h3 pr (fun _ _ => rfl)
    refine ⟨.unit, _, { c with h := s.1 }, by simp only [MStep.mean, hx, Option.bind_some, hb, Option.map_some]; rfl, ?_, ?_⟩
    · have hr : readCell cap (cells xs) k = some xs[k] := by
        simp only [readCell, cells, if_pos (show k < cap by omega), List.getElem?_eq_getElem hk]
      simp only [MStep.run, e5, Heap.store, e6, hr, Option.map_some, hst]
    · have ho' : upd c.obj j (some s.2) = c.obj := by
        funext z
        by_cases hz : z = j
        · subst hz; rw [upd_same, hst, e1]
        · exact upd_other _ _ hz
      simp only [ho'] at t2
      exact t2
  | bin i j b =>
    simp only [MStep.mean, MStep.run, MStep.Pre] at hp ⊢
    refine t.whole hp (b.goes i j) fun h' obj' e k l p xs cap nul hk hk' hf hne => ?_
    obtain ⟨A, A', hA, hA', -⟩ := hp
    obtain ⟨o, ho, -⟩ := t.rel.obj hA
    obtain ⟨u, hu, -⟩ := t.rel.obj hA'
    simp only at ho hu
    by_cases hij : i = j
    · subst hij
      rw [hA] at hA'; cases hA'
      rw [ho] at hu; cases hu
      simp only [Sys.step, ho, if_true] at e
      by_cases hki : k = i
      · subst hki
        rw [ho] at hk; cases hk
        rw [hA] at hk'; cases hk'
        cases b with
        | move => simp [VBin.goes] at hf
        | swap | copy _ _ _ | copyTrivial _ =>
          have hl : l = k := by simp [VBin.goes] at hf; exact hf.symm
          subst hl
          simp only [vsys, Vec.self, Sys.spec, hA, if_true, vselfS] at e ⊢
          cases e
          exact ⟨p, cap, nul, by simp, by simp, rfl⟩
      · have hl : l = k := by
          cases b <;> simp [VBin.goes, hki] at hf <;> exact hf.symm
        subst hl
        have ho' : obj' l = c.obj l := by
          revert e
          cases (vsys V mn mx).self b c.h o with
          | ub => intro e; cases hq : ((vsys V mn mx).spec a.obj (.bin i i b)).2 <;> rw [hq] at e <;> cases e
          | ok r => intro e; cases hq : ((vsys V mn mx).spec a.obj (.bin i i b)).2 <;> rw [hq] at e <;> cases e; exact upd_other _ _ hki
          | exn r => intro e; cases hq : ((vsys V mn mx).spec a.obj (.bin i i b)).2 <;> rw [hq] at e <;> cases e; exact upd_other _ _ hki
        refine ⟨p, cap, nul, ho'.trans hk, ?_, rfl⟩
        simp only [Sys.spec, hA, if_true]
        rw [upd_other _ _ hki]; exact hk'
    · obtain ⟨r, hr, rfl⟩ := step_bin ho hu hij e
      have hspec : ((vsys V mn mx).spec a.obj (.bin i j b)).1 = upd (upd a.obj i (some (vbinS mn mx b A A').1.1)) j (some (vbinS mn mx b A A').1.2) := by
        simp only [Sys.spec, hA, hA', if_neg hij]; rfl
      rw [hspec]
      by_cases hki : k = i
      · subst hki
        rw [ho] at hk; cases hk
        rw [hA] at hk'; cases hk'
        cases b with
        | move => simp [VBin.goes, hij] at hf
        | copy _ _ _ | copyTrivial _ => simp [VBin.goes, hij] at hf
        | swap =>
          have hl : l = j := by simp [VBin.goes] at hf; exact hf.symm
          subst hl
          have : r = (c.h, u, p) := by rcases hr with hr | hr <;> cases hr; rfl
          subst this
          exact ⟨p, cap, nul, by simp, by simp [vbinS], rfl⟩
      · by_cases hkj : k = j
        · subst hkj
          rw [hu] at hk; cases hk
          rw [hA'] at hk'; cases hk'
          cases b with
          | move =>
            have hl : l = i := by simp [VBin.goes, hij] at hf; exact hf.symm
            subst hl
            exact ⟨r.2.1, cap, nul, by rw [upd_other _ _ hij, upd_same], by rw [upd_other _ _ hij, upd_same]; rfl, bin_move hr⟩
          | swap =>
            have hl : l = i := by simp [VBin.goes, hki] at hf; exact hf.symm
            subst hl
            have : r = (c.h, p, o) := by rcases hr with hr | hr <;> cases hr; rfl
            subst this
            exact ⟨p, cap, nul, by rw [upd_other _ _ hij, upd_same], by rw [upd_other _ _ hij, upd_same]; rfl, rfl⟩
          | copy thr left al =>
            have hl : l = k := by simp [VBin.goes, hki] at hf; exact hf.symm
            subst hl
            exact ⟨p, cap, nul, by rw [upd_same, bin_copy (.inl ⟨_, _, _, rfl⟩) hr], by rw [upd_same]; rfl, rfl⟩
          | copyTrivial al =>
            have hl : l = k := by simp [VBin.goes, hki] at hf; exact hf.symm
            subst hl
            exact ⟨p, cap, nul, by rw [upd_same, bin_copy (.inr ⟨_, rfl⟩) hr], by rw [upd_same]; rfl, rfl⟩
        · have hl : l = k := by
            cases b <;> simp [VBin.goes, hki, hkj] at hf <;> exact hf.symm
          subst hl
          exact ⟨p, cap, nul, by rw [upd_other _ _ hkj, upd_other _ _ hki]; exact hk, by rw [upd_other _ _ hkj, upd_other _ _ hki]; exact hk', rfl⟩
  | make i k =>
    simp only [MStep.mean, MStep.run, MStep.Pre] at hp ⊢
    refine t.whole hp some fun h' obj' e n l p xs cap nul hn hn' hf hne => ?_
    cases hf
    obtain ⟨hnone, -⟩ := hp
    have hni : n ≠ i := by rintro rfl; rw [hnone] at hn'; cases hn'
    have hw := t.rel.absent hnone
    simp only at hw
    simp only [Sys.step, hw] at e
    refine ⟨p, cap, nul, ?_, ?_, rfl⟩
    · revert e
      cases (vsys V mn mx).ctor k c.h with
      | ub => intro e; cases hq : ((vsys V mn mx).spec a.obj (.make i k)).2 <;> rw [hq] at e <;> cases e
      | ok r => intro e; cases hq : ((vsys V mn mx).spec a.obj (.make i k)).2 <;> rw [hq] at e <;> cases e; rw [upd_other _ _ hni]; exact hn
      | exn r => intro e; cases hq : ((vsys V mn mx).spec a.obj (.make i k)).2 <;> rw [hq] at e <;> cases e; exact hn
    · simp only [Sys.spec]
      split
      · exact hn'
      · rw [upd_other _ _ hni]; exact hn'
  | makeFrom i j f =>
    simp only [MStep.mean, MStep.run, MStep.Pre] at hp ⊢
    refine t.whole hp (f.goes i j) fun h' obj' e n l p xs cap nul hn hn' hf hne => ?_
    obtain ⟨hnone, A, hA, -⟩ := hp
    have hni : n ≠ i := by rintro rfl; rw [hnone] at hn'; cases hn'
    have hji : i ≠ j := by rintro rfl; rw [hnone] at hA; cases hA
    have hw := t.rel.absent hnone
    obtain ⟨u, hu, -⟩ := t.rel.obj hA
    simp only at hw hu
    simp only [Sys.step, hw, hu] at e
    cases f with
    | move =>
      simp only [vsys, Vec.ctorFrom, Sys.spec, hA, vfromS, Bool.false_eq_true, if_false] at e ⊢
      cases e
      by_cases hnj : n = j
      · subst hnj
        have hl : l = i := by simp [VFrom.goes] at hf; exact hf.symm
        subst hl
        rw [hu] at hn; cases hn
        rw [hA] at hn'; cases hn'
        exact ⟨p, cap, nul, by rw [upd_other _ _ hji, upd_same], by rw [upd_other _ _ hji, upd_same], rfl⟩
      · have hl : l = n := by simp [VFrom.goes, hnj] at hf; exact hf.symm
        subst hl
        exact ⟨p, cap, nul, by rw [upd_other _ _ hnj, upd_other _ _ hni]; exact hn, by rw [upd_other _ _ hnj, upd_other _ _ hni]; exact hn', rfl⟩
    | copy thr fails =>
      have hl : l = n := by simp [VFrom.goes] at hf; exact hf.symm
      subst hl
      have hsrc : ∀ {q q' : Option (Hdr V)}, (upd (upd c.obj i q) j (some u)) l = some p ∧ (upd c.obj j (some u)) l = some p := by
        intro q q'
        by_cases hlj : l = j
        · subst hlj; rw [hu] at hn; cases hn; simp
        · rw [upd_other _ _ hlj, upd_other _ _ hlj, upd_other _ _ hni]; exact ⟨hn, hn⟩
      refine ⟨p, cap, nul, ?_, ?_, rfl⟩
      · have key : ∀ r, ((vsys V mn mx).ctorFrom (.copy thr fails) c.h u = .ok r → r.2.2 = u) := by
          intro r hr
          simp only [vsys, Vec.ctorFrom] at hr
          split at hr
          · cases hr
          · split at hr <;> cases hr; rfl
        have key' : ∀ r, ((vsys V mn mx).ctorFrom (.copy thr fails) c.h u = .exn r → r.2 = u) := by
          intro r hr
          simp only [vsys, Vec.ctorFrom] at hr
          split at hr
          · cases hr
          · split at hr <;> cases hr; rfl
        cases hq : (vsys V mn mx).ctorFrom (.copy thr fails) c.h u with
        | ub => rw [hq] at e; cases hq : ((vsys V mn mx).spec a.obj (.makeFrom i j (.copy thr fails))).2 <;> rw [hq] at e <;> cases e
        | ok r =>
          rw [hq] at e
          cases hz : ((vsys V mn mx).spec a.obj (.makeFrom i j (.copy thr fails))).2 <;> rw [hz] at e <;> cases e
          rw [key r hq]; exact (hsrc (q' := none)).1
        | exn r =>
          rw [hq] at e
          cases hz : ((vsys V mn mx).spec a.obj (.makeFrom i j (.copy thr fails))).2 <;> rw [hz] at e <;> cases e
          rw [key' r hq]; exact (hsrc (q := none) (q' := none)).2
      · have hs : ((vsys V mn mx).ctorFromS (.copy thr fails) A).1.2 = A := rfl
        simp only [Sys.spec, hA, hs]
        by_cases hlj : l = j
        · subst hlj; rw [hA] at hn'; cases hn'; split <;> simp
        · split
          · rw [upd_other _ _ hlj]; exact hn'
          · rw [upd_other _ _ hlj, upd_other _ _ hni]; exact hn'
  | drop i =>
    simp only [MStep.mean, MStep.run, MStep.Pre] at hp ⊢
    refine t.whole hp _ fun h' obj' e n l p xs cap nul hn hn' hf hne => ?_
    obtain ⟨A, hA⟩ := hp
    obtain ⟨o, ho, -⟩ := t.rel.obj hA
    simp only at ho
    simp only [Sys.step, ho] at e
    have hni : n ≠ i := by rintro rfl; simp at hf
    have hl : l = n := by simp [hni] at hf; exact hf.symm
    subst hl
    refine ⟨p, cap, nul, ?_, ?_, rfl⟩
    · revert e
      cases (vsys V mn mx).dtor c.h o with
      | none => intro e; cases e
      | some r => intro e; cases e; rw [upd_other _ _ hni]; exact hn
    · simp only [Sys.spec]; rw [upd_other _ _ hni]; exact hn'

/-- C108: a program with any number of vectors and iterators of them that keeps to the rules of the standard (and the further ones in `MStep.Pre`: a vector that has
been moved from is only assigned to, swapped, copied or destroyed, and what C25 to C28 add) is defined; everything it reads and which steps throw are as for
sequences with positions, whatever throws and whatever allocation fails. Vectors have no storage in common, and every block is owned by a vector. -/
theorem C108_program_partial (hW : 64 ≤ W) (hm : (mx : Int) < 2 ^ (W - 1)) :
    ∀ (P : MProg V R) {c : MCS V} {a : MAS V}, MTracks mn mx hmm c a → P.Pre mn mx W a →
      ∃ r a' c', P.mean mn mx a = some (r, a') ∧ P.run mn mx W c = some (r, c') ∧ MTracks mn mx hmm c' a'
  | .ret r, c, a, t, _ => ⟨r, a, c, rfl, rfl, t⟩
  | .step s k, c, a, t, ⟨h1, h2⟩ => by
    obtain ⟨x, a1, c1, e1, e2, t1⟩ := MStep.good hW hm t s h1
    obtain ⟨r, a2, c2, e3, e4, t2⟩ := C108_program_partial hW hm (k x) t1 (h2 _ e1)
    exact ⟨r, a2, c2, by simp only [MProg.mean, e1, Option.bind_some, e3], by simp only [MProg.run, e2, e4], t2⟩

/-- C108 from the beginning, when there is nothing. If the program destroys all its vectors, nothing stays allocated. -/
theorem C108_vectors_partial (hmm : mn ≤ mx) (hW : 64 ≤ W) (hm : (mx : Int) < 2 ^ (W - 1)) (P : MProg V R) (hp : P.Pre mn mx W ⟨fun _ => none, fun _ => none⟩) :
    ∃ r a c, P.mean mn mx ⟨fun _ => none, fun _ => none⟩ = some (r, a) ∧ P.run mn mx W ⟨⟨fun _ => none, 0⟩, fun _ => none, fun _ => none⟩ = some (r, c) ∧
      MTracks mn mx hmm c a ∧ ((∀ i, a.obj i = none) → ∀ n, c.h.blk n = none) := by
  obtain ⟨r, a, c, e1, e2, t⟩ := C108_program_partial (hmm := hmm) hW hm P (c := ⟨⟨fun _ => none, 0⟩, fun _ => none, fun _ => none⟩) (a := ⟨fun _ => none, fun _ => none⟩)
    ⟨Sys.rel_start, fun x i k h => by cases h⟩ hp
  exact ⟨r, a, c, e1, e2, t, fun h n => t.rel.empty h n⟩

theorem Call.args_id (m : Call V) : m.args id = m := by cases m <;> rfl

/-- C108 extends C104: if the variables are iterators of vector `i`, a function of `i` means what it means in a program with one vector. -/
theorem C108_one_vector {a : MAS V} {i : Nat} (hi : ∀ x p, a.pos x = some p → p.1 = i) (m : Call V) (y : Nat) {b : AS V} (hb : a.of i = some b) :
    (MStep.call i m y).mean mn mx a = (m.mean (vcfg mn mx) y b).map fun r => (.flag r.1, a.put i r.2) := by
  have e : Val.of a i = id := by
    funext v
    cases v with
    | fresh v => rfl
    | elem x =>
      simp only [Val.of, id]
      cases hx : a.pos x with
      | none => rfl
      | some p => simp only [hi x p hx, if_true]
  simp only [MStep.mean, MAS.one, e, Call.args_id, hb, Option.bind_some]

/-- An element of another vector is an argument like an object outside of all vectors. -/
theorem C108_argument_of_another {a : MAS V} {i x j k : Nat} (hx : a.pos x = some (j, k)) (hj : j ≠ i) {v : V} (hv : (a.elems j)[k]? = some v) (f : Val V → Call V)
    (hf : ∀ g u, (f u).args g = f (g u)) (y : Nat) : (MStep.call i (f (.elem x)) y).mean mn mx a = (MStep.call i (f (.fresh v)) y).mean mn mx a := by
  simp only [MStep.mean, hf, Val.of, hx, if_neg hj, hv]

/-- The functions with an argument. -/
example (x n : Nat) (t : Bool) (thr al : Nat → Bool) (f : Val V → Call V) (h : f ∈ [fun c => .push c t al, fun c => .emplaceBack c t al, fun c => .insert x c t al,
    fun c => .emplace x c t al, fun c => .insertCount x n c t thr al, fun c => .resizeValue n c thr al]) (g : Val V → Val V) (u : Val V) : (f u).args g = f (g u) := by
  simp only [List.mem_cons, List.not_mem_nil, or_false] at h
  rcases h with rfl | rfl | rfl | rfl | rfl | rfl <;> rfl

/-- Iterators follow their elements: after `swap` an iterator to an element of one vector is an iterator to the same element, which is now in the other vector, and
after a move it is an iterator into the new vector; the address has not changed. -/
theorem C108_iterators_follow (hW : 64 ≤ W) (hm : (mx : Int) < 2 ^ (W - 1)) {c : MCS V} {a : MAS V} (t : MTracks mn mx hmm c a) {i j x k : Nat} (hij : i ≠ j)
    (hx : a.pos x = some (j, k)) (hk : k < (a.elems j).length) (b : VBin V) (hb : b = .move ∨ b = .swap) (hi : (a.obj i).isSome) :
    ∃ c' a', (MStep.bin i j b).run mn mx W c = some (.flag false, c') ∧ (MStep.bin i j b).mean mn mx a = some (.flag false, a') ∧ MTracks mn mx hmm c' a' ∧
      c'.its x = c.its x ∧ a'.pos x = some (i, k) ∧ a'.elems i = a.elems j ∧ (MStep.peek x).run mn mx W c' = some ((MStep.peek x).run mn mx W c |>.map (·.1) |>.getD .unit, c') := by
  obtain ⟨A, hA⟩ := Option.isSome_iff_exists.1 hi
  obtain ⟨o, xs, cap, nul, e1, e2, -, -⟩ := t.vars x j k hx
  have hpre : (MStep.bin i j b).Pre mn mx W a := by
    refine ⟨A, .live xs cap nul, hA, e2, ?_⟩
    rw [if_neg hij]
    rcases hb with rfl | rfl <;> exact trivial
  obtain ⟨y, a', c', h1, h2, h3⟩ := MStep.good hW hm t (.bin i j b) hpre
  have hel : a.elems j = xs := by simp only [MAS.elems, e2]; rfl
  have hmean : (MStep.bin i j b).mean mn mx a = some (.flag false,
      ⟨upd (upd a.obj i (some (vbinS mn mx b A (.live xs cap nul)).1.1)) j (some (vbinS mn mx b A (.live xs cap nul)).1.2), a.follow (b.goes i j)⟩) := by
    simp only [MStep.mean, MAS.whole, Sys.spec, hA, e2, if_neg hij]
    rcases hb with rfl | rfl <;> rfl
  rw [hmean] at h1
  cases h1
  have hits : c'.its = c.its := by
    simp only [MStep.run] at h2
    revert h2
    cases (vsys V mn mx).step (c.h, c.obj) (.bin i j b) <;> intro h2 <;> cases h2 <;> rfl
  have hpos : a.follow (b.goes i j) x = some (i, k) := by
    simp only [MAS.follow, hx, Option.bind_some]
    have hg : b.goes i j j = some i := by
      rcases hb with rfl | rfl
      · simp [VBin.goes, hij]
      · simp [VBin.goes, Ne.symm hij]
    rw [hg, if_neg (by simpa using hij), if_pos hk]; rfl
  have hfirst : (vbinS mn mx b A (.live xs cap nul)).1.1 = .live xs cap nul := by rcases hb with rfl | rfl <;> rfl
  have hel' : MAS.elems ⟨upd (upd a.obj i (some (vbinS mn mx b A (.live xs cap nul)).1.1)) j (some (vbinS mn mx b A (.live xs cap nul)).1.2), a.follow (b.goes i j)⟩ i = xs := by
    simp only [MAS.elems]
    rw [upd_other _ _ hij, upd_same, hfirst]; rfl
  refine ⟨c', _, h2, hmean, h3, by rw [hits], hpos, by rw [hel', hel], ?_⟩
  have hkx : xs[k]? = some (xs[k]'(by rw [← hel]; exact hk)) := List.getElem?_eq_getElem _
  obtain ⟨p, d1, d2, -⟩ := t.val hx (by rw [hel]; exact hkx)
  obtain ⟨p', d3, d4, -⟩ := h3.val (x := x) (j := i) (k := k) hpos (by rw [hel']; exact hkx)
  simp only [MStep.run, d1, d2, d3, d4, Option.map_some, Option.getD_some]

/-! ## Examples -/

/-- Deciding the precondition of a step, for the examples; no `at`. -/
def MStep.legal (mn mx : Nat) (a : MAS V) : MStep V → Bool
  | .look i l => (a.of i).any fun b => l.legal b
  | .call i m _ => (a.of i).any fun b => match (m.args (Val.of a i)).op b with | some u => decide ((m.args (Val.of a i)).Asks (vcfg mn mx) b u) | none => false
  | .insertFrom i x y z thr al _ => (a.of i).any fun b => (a.range i y z).any fun vs =>
    match (Call.insertRange x (items vs thr) al).op b with | some u => decide ((Call.insertRange x (items vs thr) al).Asks (vcfg mn mx) b u) | none => false
  | .peek x | .poke x _ => (a.pos x).any fun p => decide (p.2 < (a.elems p.1).length)
  | .bin i j b => decide ((vsys V mn mx).pre a.obj (.bin i j b))
  | .make i c => decide ((vsys V mn mx).pre a.obj (.make i c))
  | .makeFrom i j f => decide ((vsys V mn mx).pre a.obj (.makeFrom i j f))
  | .drop i => decide ((vsys V mn mx).pre a.obj (.drop i))

/-- Deciding the precondition of a program. -/
def MProg.legal (mn mx : Nat) : MProg V R → MAS V → Bool
  | .ret _, _ => true
  | .step s k, a => s.legal mn mx a && (match s.mean mn mx a with | some x => (k x.1).legal mn mx x.2 | none => true)

theorem Call.pre_of_legal {q : Cfg} {b : AS V} {m : Call V} (h : (match m.op b with | some u => decide (m.Asks q b u) | none => false) = true) : m.Pre q b := by
  split at h
  · rename_i u hu; exact ⟨u, hu, by simpa using h⟩
  · cases h

theorem MStep.pre_of_legal {a : MAS V} {s : MStep V} (h : s.legal mn mx a = true) : s.Pre mn mx W a := by
  cases s <;> simp only [MStep.legal, Option.any_eq_true, decide_eq_true_eq] at h
  case look => obtain ⟨b, h1, h2⟩ := h; exact ⟨b, h1, Look.pre_of_legal h2⟩
  case call => obtain ⟨b, h1, h2⟩ := h; exact ⟨b, h1, Call.pre_of_legal h2⟩
  case insertFrom => obtain ⟨b, h1, vs, h2, h3⟩ := h; exact ⟨b, vs, h1, h2, Call.pre_of_legal h3⟩
  all_goals exact h

theorem MProg.pre_of_legal : ∀ {P : MProg V R} {a : MAS V}, P.legal mn mx a = true → P.Pre mn mx W a
  | .ret _, _, _ => trivial
  | .step s k, a, h => by
    simp only [MProg.legal, Bool.and_eq_true] at h
    refine ⟨MStep.pre_of_legal h.1, fun x hx => ?_⟩
    have := h.2
    rw [hx] at this
    exact pre_of_legal this

/-- A program: a vector with three elements and an iterator to the second one; a copy of it; a third vector takes over the first one and the iterator with it;
an element is written through the iterator; the range from it is inserted into the copy, whose front is inserted into the third vector; the two are swapped, and the
iterator is read; all are destroyed, the iterator is read before. -/
def exMany : MProg Nat (Ans Nat × Ans Nat × Ans Nat × Ans Nat) :=
  .step (.make 0 (.sized [⟨1, false⟩, ⟨2, false⟩, ⟨3, false⟩] false)) fun _ => .step (.look 0 (.first 0)) fun _ => .step (.look 0 (.move 0 1 1)) fun _ =>
  .step (.makeFrom 1 0 (.copy (fun _ => false) false)) fun _ => .step (.makeFrom 2 0 .move) fun _ => .step (.poke 1 9) fun _ =>
  .step (.look 1 (.last 2)) fun _ => .step (.look 2 (.last 3)) fun _ => .step (.insertFrom 1 2 1 3 (fun _ => false) (fun _ => false) 4) fun _ =>
  .step (.call 2 (.reserve 5 false) 7) fun _ => .step (.look 2 (.first 1)) fun _ => .step (.look 2 (.last 5)) fun _ =>
  .step (.call 2 (.insert 5 (.elem 4) false fun _ => false) 5) fun _ => .step (.bin 1 2 .swap) fun _ => .step (.peek 5) fun x =>
  .step (.look 1 .iterate) fun y => .step (.look 2 .iterate) fun z => .step (.bin 0 2 (.copy (fun k => k == 2) 0 fun _ => false)) fun e =>
  .step (.drop 2) fun _ => .step (.drop 1) fun _ => .step (.drop 0) fun _ => .ret (x, y, z, e)

/-- What it reads, and the meaning. -/
example : ((exMany.run 0 100 64 ⟨⟨fun _ => none, 0⟩, fun _ => none, fun _ => none⟩).map (·.1)) = some (.val 9, .list [1, 9, 3, 9], .list [1, 2, 3, 9, 3], .flag true) ∧
    ((exMany.mean 0 100 ⟨fun _ => none, fun _ => none⟩).map (·.1)) = some (.val 9, .list [1, 9, 3, 9], .list [1, 2, 3, 9, 3], .flag true) := by
  decide +kernel

/-- The hypotheses of `C108_vectors_partial` for it. -/
example : exMany.Pre 0 100 64 ⟨fun _ => none, fun _ => none⟩ := MProg.pre_of_legal (by decide +kernel)

/-- The hypotheses of `C108_iterators_follow`: it has two such vectors before the swap. -/
example : ∃ (c : MCS Nat) (a : MAS Nat), MTracks 0 100 (Nat.zero_le _) c a ∧ a.pos 0 = some (0, 0) ∧ 0 < (a.elems 0).length ∧ (a.obj 1).isSome := by
  obtain ⟨r, a, c, e1, -, t, -⟩ := C108_vectors_partial (mn := 0) (mx := 100) (W := 64) (V := Nat) (R := Unit) (Nat.zero_le _) (by omega) (by decide)
    (.step (.make 0 (.sized [⟨1, false⟩, ⟨2, false⟩, ⟨3, false⟩] false)) fun _ => .step (.look 0 (.first 0)) fun _ =>
      .step (.makeFrom 1 0 (.copy (fun _ => false) false)) fun _ => .ret ()) (MProg.pre_of_legal (by decide +kernel))
  refine ⟨c, a, t, ?_⟩
  cases e1
  exact ⟨rfl, by decide, rfl⟩

/-- Using an iterator of a vector that was destroyed or assigned to is undefined. -/
example : ((MProg.step (.make 0 (.sized [⟨1, false⟩] false)) fun _ => .step (.look 0 (.first 0)) fun _ => .step (.drop 0) fun _ => .step (.peek 0) fun x => .ret x :
      MProg Nat (Ans Nat)).run 0 100 64 ⟨⟨fun _ => none, 0⟩, fun _ => none, fun _ => none⟩).isNone = true ∧
    ((MProg.step (.make 0 (.sized [⟨1, false⟩] false)) fun _ => .step (.make 1 (.sized [⟨2, false⟩] false)) fun _ => .step (.look 0 (.first 0)) fun _ =>
      .step (.bin 0 1 .move) fun _ => .step (.peek 0) fun x => .ret x :
      MProg Nat (Ans Nat)).run 0 100 64 ⟨⟨fun _ => none, 0⟩, fun _ => none, fun _ => none⟩).isNone = true := by
  decide +kernel

/-- The standard permits to use a vector that has been moved from; here `push_back` is undefined then. -/
theorem C108_moved_from_violated : ((MProg.step (.make 0 (.sized [⟨1, false⟩] false)) fun _ => .step (.makeFrom 1 0 .move) fun _ =>
      .step (.call 0 (.push (.fresh 2) false fun _ => false) 9) fun x => .ret x :
      MProg Nat (Ans Nat)).run 0 100 64 ⟨⟨fun _ => none, 0⟩, fun _ => none, fun _ => none⟩).isNone = true := by
  decide +kernel

end Verif.Containers
