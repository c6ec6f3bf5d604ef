import Verif.Containers.ManyVectors
import Verif.Containers.SboWorld
import Verif.Containers.StaticVector

/-!
# Programs with several small-buffer or static vectors and iterators of them (C110)

As in C108, but elements may be inside of the vector object (`static_vector`, and `sbo_vector` and `string` while they are small). An iterator is an address in a
block of the heap or in an object. Moves and swaps take iterators along only if the elements are in a block.
-/

namespace Verif.Containers.Several

open Verif Impl Lawful Verif.Bounded

variable {V O A B C X R : Type}

/-! ## Model -/

/-- Where an element can be: in a block of the heap, or in the object with the number `i`. -/
inductive Place where
  | block (b : Nat)
  | object (i : Nat)
  deriving DecidableEq

/-- An iterator: all iterators here are pointers (source/containers/sbo_vector.cpp 228-237, static_vector.cpp 104-109, contiguous_iterator.cpp). -/
structure Ptr where
  place : Place
  slot : Nat

/-- What becomes of the elements of an operand, as far as pointers to them are concerned. -/
inductive Goes where
  /-- they stay where they are -/
  | stay
  /-- they belong to the other operand, and stay where they are -/
  | other
  /-- they are destroyed or are somewhere else -/
  | lost

/-- The number of the object that they belong to afterwards. -/
def Goes.to (me other : Nat) : Goes → Option Nat
  | .stay => some me
  | .other => some other
  | .lost => none

/-- A kind of vectors: the functions (C104), the operations on whole vectors, and their specification: `view` is elements and capacity; the last three fields say
where elements go. -/
structure Kind (V O A B C X : Type) where
  I : Impl V O
  mn : Nat
  S : Sys V O A (GOp V) B C X
  q : Cfg
  view : A → SV V
  pack : SV V → A
  binGoes : B → A → A → Goes × Goes
  selfGoes : B → Goes
  fromGoes : X → A → Goes

/-- What a program can do. `i`, `j` name vectors; `x`, `y`, `z`, `w` are variables with iterators. -/
inductive Step (V B C X : Type) where
  /-- something with vector `i` that does not change the number of its elements (C104) -/
  | look (i : Nat) (l : Look V)
  /-- a function of vector `i` (C104), what it returns goes to `y`. An argument may be an element of any vector. -/
  | call (i : Nat) (m : Call V) (y : Nat)
  /-- insertion before `x` of the elements between the iterators `y`, `z` of another vector; `thr k` says that copying the `k`-th one throws -/
  | insertFrom (i x y z : Nat) (thr : Nat → Bool) (al : Nat → Bool) (w : Nat)
  /-- `*x` -/
  | peek (x : Nat)
  /-- `*x = v` -/
  | poke (x : Nat) (v : V)
  /-- assignment or swap -/
  | bin (i j : Nat) (b : B)
  | make (i : Nat) (c : C)
  /-- copy or move construction of `i` from `j` -/
  | makeFrom (i j : Nat) (f : X)
  | drop (i : Nat)

/-- A program; what it learns from a step is what it read, or if the step threw. -/
inductive Prog (V B C X R : Type) where
  | ret (r : R)
  | step (s : Step V B C X) (k : Ans V → Prog V B C X R)

/-- The state of a program: memory, the vectors, the variables. -/
structure CState (V O : Type) where
  h : Heap V
  obj : Nat → Option O
  its : Nat → Option Ptr

/-- `data()` of the vector with number `i` (sbo_vector.cpp 228-237, static_vector.cpp 104-109). -/
def place (I : Impl V O) (i : Nat) (o : O) : Place :=
  match I.ptr o with
  | none => .object i
  | some b => .block b

/-- The slots at a place. The slots in an object exist only if it has its elements inside. -/
def CState.slots (I : Impl V O) (c : CState V O) : Place → Option (Nat × Cells V)
  | .block b => (c.h.blk b).map fun B => (B.cap, B.cell)
  | .object i => (c.obj i).bind fun o => if (I.ptr o).isNone then some (I.mem c.h o) else none

/-- Reading through a pointer: there has to be an object. -/
def CState.load (I : Impl V O) (c : CState V O) (p : Ptr) : Option V :=
  (c.slots I p.place).bind fun m => readCell m.1 m.2 p.slot

/-- Assigning to an object through a pointer. -/
def CState.store (I : Impl V O) (c : CState V O) (p : Ptr) (v : V) : Option (CState V O) :=
  match c.load I p with
  | none => none
  | some _ =>
    match p.place with
    | .block b => (c.h.blk b).map fun B => { c with h := ⟨upd c.h.blk b (some ⟨B.cap, upd B.cell p.slot (some v)⟩), c.h.next⟩ }
    | .object i => (c.obj i).map fun o =>
      ⟨(I.put c.h o (upd (I.mem c.h o).2 p.slot (some v))).1, upd c.obj i (some (I.put c.h o (upd (I.mem c.h o).2 p.slot (some v))).2), c.its⟩

/-- Reading the elements between two pointers into the same array. -/
def CState.loadRange (I : Impl V O) (c : CState V O) (p r : Ptr) : Option (List V) :=
  if p.place = r.place ∧ p.slot ≤ r.slot then (c.slots I p.place).bind fun m => readFrom m.1 m.2 p.slot (r.slot - p.slot) else none

/-- The variables for a function of vector `i` (in C104 an address is a block or the inside of the vector): pointers into other objects are not pointers into
this vector. -/
def inward (i : Nat) (its : Nat → Option Ptr) (x : Nat) : Option Addr :=
  (its x).bind fun p =>
    match p.place with
    | .block b => some ⟨some b, p.slot⟩
    | .object j => if j = i then some ⟨none, p.slot⟩ else none

/-- And after the function. -/
def outward (i : Nat) (its : Nat → Option Ptr) (its' : Nat → Option Addr) (x : Nat) : Option Ptr :=
  match its' x with
  | none => its x
  | some ⟨none, k⟩ => some ⟨.object i, k⟩
  | some ⟨some b, k⟩ => some ⟨.block b, k⟩

/-- An argument of a function of vector `i`: an element of another vector is an object that is not in this vector. It is read when the function is called; the
function does not touch other vectors, so reading it later would give the same. -/
def seen (I : Impl V O) (c : CState V O) (i : Nat) (o : O) : Val V → Val V
  | .fresh v => .fresh v
  | .elem x =>
    match c.its x with
    | none => .elem x
    | some p =>
      if p.place = place I i o then .elem x
      else
        match c.load I p with
        | some v => .fresh v
        | none => .elem x

/-- What a step that may throw tells the program. -/
def outcome (its : Nat → Option Ptr) : Out (Heap V × (Nat → Option O)) → Option (Ans V × CState V O)
  | .ok w => some (.flag false, ⟨w.1, w.2, its⟩)
  | .exn w => some (.flag true, ⟨w.1, w.2, its⟩)
  | .ub => none

/-- A function of one vector, in a program with several. -/
def CState.one (K : Kind V O A B C X) (W : Nat) (c : CState V O) (i : Nat) (m : O → Option (Call V)) (y : Nat) : Option (Ans V × CState V O) :=
  match c.obj i with
  | none => none
  | some o =>
    match m o with
    | none => none
    | some m =>
      match (StdProg.call m y fun b => .ret b : StdProg V Bool).run K.I W K.mn ⟨c.h, o, inward i c.its⟩ with
      | none => none
      | some (b, c') => some (.flag b, ⟨c'.h, upd c.obj i (some c'.o), outward i c.its c'.its⟩)

/-- One step: source/containers/sbo_vector.cpp 180-276, static_vector.cpp 48-137, and the functions of C104. -/
def Step.run (K : Kind V O A B C X) (W : Nat) (c : CState V O) : Step V B C X → Option (Ans V × CState V O)
  | .look i l =>
    match c.obj i with
    | none => none
    | some o =>
      match l.run K.I W ⟨c.h, o, inward i c.its⟩ with
      | none => none
      | some (a, c') => some (a, ⟨c'.h, upd c.obj i (some c'.o), outward i c.its c'.its⟩)
  | .call i m y => c.one K W i (fun o => some (m.args (seen K.I c i o))) y
  | .insertFrom i x y z thr al w =>
    c.one K W i (fun _ =>
      match c.its y, c.its z with
      | some p, some r => (c.loadRange K.I p r).map fun vs => .insertRange x (items vs thr) al
      | _, _ => none) w
  | .peek x =>
    match c.its x with
    | none => none
    | some p => (c.load K.I p).map fun v => (.val v, c)
  | .poke x v =>
    match c.its x with
    | none => none
    | some p => (c.store K.I p v).map fun c' => (.unit, c')
  | .bin i j b => outcome c.its (K.S.step (c.h, c.obj) (.bin i j b))
  | .make i k => outcome c.its (K.S.step (c.h, c.obj) (.make i k))
  | .makeFrom i j f => outcome c.its (K.S.step (c.h, c.obj) (.makeFrom i j f))
  | .drop i => outcome c.its (K.S.step (c.h, c.obj) (.drop i))

/-- Running a program; nothing if it is undefined. -/
def Prog.run (K : Kind V O A B C X) (W : Nat) : Prog V B C X R → CState V O → Option (R × CState V O)
  | .ret r, c => some (r, c)
  | .step s k, c =>
    match s.run K W c with
    | some (a, c') => (k a).run K W c'
    | none => none

/-! ## Specification

Sequences, and for every variable a sequence and an index in it, or that it must not be used. -/

/-- The vectors and the variables. -/
structure AState (A : Type) where
  obj : Nat → Option A
  pos : Nat → Option (Nat × Nat)

/-- The elements of vector `i`. -/
def AState.elems (K : Kind V O A B C X) (a : AState A) (i : Nat) : List V := ((a.obj i).map fun s => (K.view s).1).getD []

/-- The vector `i` and the iterators into it. -/
def AState.of (K : Kind V O A B C X) (a : AState A) (i : Nat) : Option (AS V) :=
  (a.obj i).map fun s => ⟨K.view s, fun x => (a.pos x).bind fun p => if p.1 = i then some p.2 else none⟩

/-- After the vector `i` has become `b`. -/
def AState.put (K : Kind V O A B C X) (a : AState A) (i : Nat) (b : AS V) : AState A where
  obj := upd a.obj i (some (K.pack b.s))
  pos x :=
    match b.pos x with
    | some k => some (i, k)
    | none => (a.pos x).filter fun p => decide (p.1 ≠ i)

/-- An argument of a function of vector `i`: the value of an element of another vector. -/
def valOf (K : Kind V O A B C X) (a : AState A) (i : Nat) : Val V → Val V
  | .fresh v => .fresh v
  | .elem x =>
    match a.pos x with
    | none => .elem x
    | some p => if p.1 = i then .elem x else
      match (a.elems K p.1)[p.2]? with
      | some v => .fresh v
      | none => .elem x

/-- The vectors after a step that concerns whole vectors. Iterators of `i` become iterators of `f i`, if there is still an element (or the end) at that index;
`none`: they must not be used any more. -/
def AState.whole (K : Kind V O A B C X) (a : AState A) (op : WOp (GOp V) B C X) (f : Nat → Option Nat) : Option (Ans V × AState A) :=
  some (.flag (K.S.spec a.obj op).2, ⟨(K.S.spec a.obj op).1, fun x =>
    (a.pos x).bind fun p => (f p.1).bind fun j => ((K.S.spec a.obj op).1 j).bind fun s => if p.2 ≤ (K.view s).1.length then some (j, p.2) else none⟩)

/-- Where the elements of the vectors go in an assignment or swap. -/
def AState.binTo (K : Kind V O A B C X) (a : AState A) (i j : Nat) (b : B) (k : Nat) : Option Nat :=
  match a.obj i, a.obj j with
  | some s, some t =>
    if i = j then (if k = i then (K.selfGoes b).to i i else some k)
    else if k = i then (K.binGoes b s t).1.to i j
    else if k = j then (K.binGoes b s t).2.to j i
    else some k
  | _, _ => none

/-- Where the elements go when `i` is constructed from `j`. -/
def AState.fromTo (K : Kind V O A B C X) (a : AState A) (i j : Nat) (f : X) (k : Nat) : Option Nat :=
  if k = j then (a.obj j).bind fun s => (K.fromGoes f s).to j i else some k

/-- A call of a function of vector `i`. -/
def AState.one (K : Kind V O A B C X) (a : AState A) (i : Nat) (m : Call V) (y : Nat) : Option (Ans V × AState A) :=
  (a.of K i).bind fun b => (m.mean K.q y b).map fun r => (.flag r.1, a.put K i r.2)

/-- The elements in the range between the iterators `y` and `z`, which must be of a vector other than `i`. -/
def AState.range (K : Kind V O A B C X) (a : AState A) (i y z : Nat) : Option (List V) :=
  match a.pos y, a.pos z with
  | some p, some r => if p.1 = r.1 ∧ p.1 ≠ i ∧ p.2 ≤ r.2 then some (((a.elems K p.1).take r.2).drop p.2) else none
  | _, _ => none

/-- The meaning of a step. -/
def Step.mean (K : Kind V O A B C X) (a : AState A) : Step V B C X → Option (Ans V × AState A)
  | .look i l => (a.of K i).bind fun b => (l.mean b).map fun r => (r.1, a.put K i r.2)
  | .call i m y => a.one K i (m.args (valOf K a i)) y
  | .insertFrom i x y z thr al w => (a.range K i y z).bind fun vs => a.one K i (.insertRange x (items vs thr) al) w
  | .peek x => (a.pos x).bind fun p => (a.elems K p.1)[p.2]?.map fun v => (.val v, a)
  | .poke x v => (a.pos x).bind fun p => (a.of K p.1).map fun b => (.unit, a.put K p.1 { b with s := (b.s.1.set p.2 v, b.s.2) })
  | .bin i j b => a.whole K (.bin i j b) (a.binTo K i j b)
  | .make i k => a.whole K (.make i k) some
  | .makeFrom i j f => a.whole K (.makeFrom i j f) (a.fromTo K i j f)
  | .drop i => a.whole K (.drop i) fun k => if k = i then none else some k

/-- The meaning of a program. -/
def Prog.mean (K : Kind V O A B C X) : Prog V B C X R → AState A → Option (R × AState A)
  | .ret r, a => some (r, a)
  | .step s k, a => (s.mean K a).bind fun x => (k x.1).mean K x.2

/-- What the program has to ensure. -/
def Step.Pre (K : Kind V O A B C X) (W : Nat) (a : AState A) : Step V B C X → Prop
  | .look i l => ∃ b, a.of K i = some b ∧ l.Pre W K.q b
  | .call i m _ => ∃ b, a.of K i = some b ∧ (m.args (valOf K a i)).Pre K.q b
  | .insertFrom i x y z thr al _ => ∃ b vs, a.of K i = some b ∧ a.range K i y z = some vs ∧ (Call.insertRange x (items vs thr) al).Pre K.q b
  | .peek x | .poke x _ => ∃ p, a.pos x = some p ∧ p.2 < (a.elems K p.1).length
  | .bin i j b => K.S.pre a.obj (.bin i j b)
  | .make i c => K.S.pre a.obj (.make i c)
  | .makeFrom i j f => K.S.pre a.obj (.makeFrom i j f)
  | .drop i => K.S.pre a.obj (.drop i)

/-- In the run that it has. -/
def Prog.Pre (K : Kind V O A B C X) (W : Nat) : Prog V B C X R → AState A → Prop
  | .ret _, _ => True
  | .step s k, a => s.Pre K W a ∧ ∀ x, s.mean K a = some x → (k x.1).Pre K W x.2

/-! ### The kinds of vectors -/

/-- `sbo_vector`, `basic_sbo_string`: the elements are in a block when the capacity is larger than that of the small buffer; then move and swap take them along. -/
def sboKind (V : Type) (W sc mx : Nat) : Kind V (Sbo V) (SV V) (BBin V) (BCtor V) BFrom where
  I := sbo V W sc mx
  mn := sc
  S := bsys V W sc mx
  q := bcfg sc mx
  view := id
  pack := id
  binGoes b s t :=
    match b with
    | .move => (.lost, if sc < t.2 then .other else .lost)
    | .swap => (if sc < s.2 then .other else .lost, if sc < t.2 then .other else .lost)
    | .copy _ _ _ | .copyTrivial _ => (.lost, .stay)
  selfGoes _ := .stay
  fromGoes f s :=
    match f with
    | .copy _ _ => .stay
    | .move => if sc < s.2 then .other else .lost

/-- `static_vector`: elements are inside of the object. After `swap` and after being moved from by assignment an iterator is at the same index of the same vector. -/
def statKind (V : Type) (N : Nat) : Kind V (Stat V) (List V) (SBin V) (SCtor V) SFrom where
  I := stat V N
  mn := N
  S := ssys V N
  q := scfg N
  view xs := (xs, N)
  pack s := s.1
  binGoes b _ _ :=
    match b with
    | .swap => (.stay, .stay)
    | .move _ _ | .copy _ _ | .trivial => (.lost, .stay)
  selfGoes _ := .stay
  fromGoes f _ :=
    match f with
    | .move => .lost
    | .copy _ | .trivial => .stay

/-! ## Proofs -/

/-- What pointers to the elements of `o` are good for when `o` has become `me`. -/
def Goes.holds (I : Impl V O) (o me other : O) : Goes → Prop
  | .stay => I.ptr me = I.ptr o
  | .other => I.ptr other = I.ptr o ∧ I.ptr o ≠ none
  | .lost => True

/-- What is needed of a kind of vectors. -/
structure Kind.Laws (K : Kind V O A B C X) {mkA : Bool} (L : Lawful K.I K.mn mkA) (inv : Heap V → O → A → Prop) : Prop where
  laws : K.S.Laws inv
  cfg : L.cfg = K.q
  fix : K.I.reservable = false → K.mn = K.I.mx
  own : K.S.own = K.I.own
  rep : ∀ {h o s}, inv h o s → L.Rep h o (K.view s).1 (K.view s).2
  pack : ∀ {h o xs cap}, L.Rep h o xs cap → inv h o (K.pack (xs, cap)) ∧ K.view (K.pack (xs, cap)) = (xs, cap)
  block : ∀ {h o s b}, inv h o s → K.I.ptr o = some b → h.blk b = some ⟨(K.I.mem h o).1, (K.I.mem h o).2⟩ ∧
    ∀ c, K.I.put h o c = (⟨upd h.blk b (some ⟨(K.I.mem h o).1, c⟩), h.next⟩, o)
  bin : ∀ {h o t s s' b r}, inv h o s → inv h t s' → (∀ n, K.I.own o n → ¬ K.I.own t n) → (K.S.bin b h o t = .ok r ∨ K.S.bin b h o t = .exn r) →
    (K.binGoes b s s').1.holds K.I o r.2.1 r.2.2 ∧ (K.binGoes b s s').2.holds K.I t r.2.2 r.2.1
  self : ∀ {h o s b r}, inv h o s → (K.S.self b h o = .ok r ∨ K.S.self b h o = .exn r) → (K.selfGoes b).holds K.I o r.2 r.2
  fromOk : ∀ {h t s f r}, inv h t s → K.S.ctorFrom f h t = .ok r → (K.fromGoes f s).holds K.I t r.2.2 r.2.1
  fromExn : ∀ {h t s f r}, inv h t s → K.S.ctorFrom f h t = .exn r → K.fromGoes f s = .other ∨ (K.fromGoes f s).holds K.I t r.2 r.2

variable {K : Kind V O A B C X} {mkA : Bool} {L : Lawful K.I K.mn mkA} {inv : Heap V → O → A → Prop} {W : Nat}

/-- The state of the program is as specified. -/
structure Tracks (K : Kind V O A B C X) (inv : Heap V → O → A → Prop) (c : CState V O) (a : AState A) : Prop where
  rel : K.S.Rel inv (c.h, c.obj) a.obj
  vars : ∀ x i k, a.pos x = some (i, k) → ∃ o s, c.obj i = some o ∧ a.obj i = some s ∧ c.its x = some ⟨place K.I i o, k⟩ ∧ k ≤ (K.view s).1.length

theorem inward_place {I : Impl V O} {its : Nat → Option Ptr} {x i k : Nat} {o : O} (h : its x = some ⟨place I i o, k⟩) : inward i its x = some (I.addr o k) := by
  simp only [inward, h, Option.bind_some, place, Impl.addr]
  cases hp : I.ptr o <;> simp

theorem outward_inward (i : Nat) (its : Nat → Option Ptr) (its' : Nat → Option Addr) {x : Nat} (h : its' x = inward i its x) : outward i its its' x = its x := by
  simp only [outward, h, inward]
  cases hx : its x with
  | none => rfl
  | some p =>
    obtain ⟨pl, k⟩ := p
    cases pl with
    | block b => rfl
    | object j =>
      simp only [Option.bind_some]
      by_cases hj : j = i
      · subst hj; simp
      · simp [hj]

theorem outward_addr {I : Impl V O} {i k : Nat} {o : O} {its : Nat → Option Ptr} {its' : Nat → Option Addr} {x : Nat} (h : its' x = some (I.addr o k)) :
    outward i its its' x = some ⟨place I i o, k⟩ := by
  simp only [outward, h, Impl.addr, place]
  cases hp : I.ptr o <;> simp

theorem of_some {a : AState A} {i : Nat} {b : AS V} (h : a.of K i = some b) :
    ∃ s, a.obj i = some s ∧ b = ⟨K.view s, fun x => (a.pos x).bind fun p => if p.1 = i then some p.2 else none⟩ := by
  simp only [AState.of, Option.map_eq_some_iff] at h
  obtain ⟨s, h1, h2⟩ := h
  exact ⟨s, h1, h2.symm⟩

/-- The part of the program that concerns vector `i`. -/
theorem Tracks.at_ (KL : K.Laws L inv) {c : CState V O} {a : AState A} (t : Tracks K inv c a) {i : Nat} {b : AS V} (hb : a.of K i = some b) :
    ∃ o s, c.obj i = some o ∧ a.obj i = some s ∧ b.s = K.view s ∧ inv c.h o s ∧ Containers.Tracks L ⟨c.h, o, inward i c.its⟩ b := by
  obtain ⟨s, h1, rfl⟩ := of_some hb
  obtain ⟨o, ho, v⟩ := t.rel.obj h1
  refine ⟨o, s, ho, h1, rfl, v, KL.rep v, t.rel.fresh, fun x p hx => ?_⟩
  simp only [Option.bind_eq_some_iff] at hx
  obtain ⟨⟨j, k⟩, hx1, hx2⟩ := hx
  split at hx2
  · rename_i hji
    simp only at hji
    subst hji
    cases hx2
    obtain ⟨o', s', e1, e2, e3, e4⟩ := t.vars x j k hx1
    rw [show c.obj j = some o from ho] at e1; cases e1
    rw [h1] at e2; cases e2
    exact ⟨inward_place e3, e4⟩
  · cases hx2

/-- The rest of the program does not notice what happens to vector `i`. -/
theorem Tracks.put (KL : K.Laws L inv) {c : CState V O} {a : AState A} (t : Tracks K inv c a) {i : Nat} {o : O} (ho : c.obj i = some o)
    {c' : CS V O} {b' : AS V} (t' : Containers.Tracks L c' b') (fr : Frame (K.I.own o) c.h (K.I.own c'.o) c'.h)
    (hk : ∀ x, b'.pos x = none → c'.its x = inward i c.its x) :
    Tracks K inv ⟨c'.h, upd c.obj i (some c'.o), outward i c.its c'.its⟩ (a.put K i b') := by
  obtain ⟨v2, hv⟩ := KL.pack t'.rep
  refine ⟨?_, fun x j k hx => ?_⟩
  · exact t.rel.single KL.laws ho (by rw [KL.own]; exact fr) v2
  · simp only [AState.put] at hx
    cases hb : b'.pos x with
    | some p =>
      rw [hb] at hx
      simp only [Option.some.injEq, Prod.mk.injEq] at hx
      obtain ⟨rfl, rfl⟩ := hx
      obtain ⟨e1, e2⟩ := t'.vars x p hb
      exact ⟨c'.o, K.pack b'.s, by simp, by simp [AState.put], outward_addr e1, by rw [hv]; exact e2⟩
    | none =>
      rw [hb] at hx
      simp only [Option.filter_eq_some_iff, decide_eq_true_eq] at hx
      obtain ⟨hx1, hx2⟩ := hx
      obtain ⟨o', s', e1, e2, e3, e4⟩ := t.vars x j k hx1
      refine ⟨o', s', ?_, ?_, ?_, e4⟩
      · simp only; rw [upd_other _ _ hx2]; exact e1
      · simp only [AState.put]; rw [upd_other _ _ hx2]; exact e2
      · exact (outward_inward i c.its c'.its (hk x hb)).trans e3

/-- A look assigns the variables that it says. -/
theorem keeps_vars {I : Impl V O} {c c' : CS V O} {b b' : AS V} {l : Look V} {x y : Ans V} (h1 : l.run I W c = some (x, c')) (h2 : l.mean b = some (y, b')) :
    ∀ z, b'.pos z = none → c'.its z = c.its z := by
  cases l <;> simp only [Look.run, Look.mean, Option.some.injEq, Prod.mk.injEq, Option.map_eq_some_iff, Option.bind_eq_some_iff] at h1 h2
  case first | last =>
    obtain ⟨-, rfl⟩ := h1; obtain ⟨-, rfl⟩ := h2
    intro z hz
    simp only [AS.set, CS.set] at *
    split at hz
    · cases hz
    · rename_i hn; rw [if_neg hn]
  case move x d y =>
    obtain ⟨k, -, -, rfl⟩ := h2
    intro z hz
    split at h1
    · cases h1
    · split at h1
      · cases h1
        simp only [AS.set, CS.set] at *
        split at hz
        · cases hz
        · rename_i hn; rw [if_neg hn]
      · cases h1
  case diff => split at h1 <;> cases h1; exact fun _ _ => rfl
  case deref | write =>
    split at h1
    · cases h1
    · simp only [Option.map_eq_some_iff, Prod.mk.injEq] at h1
      obtain ⟨_, -, -, rfl⟩ := h1
      exact fun _ _ => rfl
  case at' => split at h1 <;> cases h1 <;> exact fun _ _ => rfl
  case size | empty => obtain ⟨-, rfl⟩ := h1; exact fun _ _ => rfl
  all_goals obtain ⟨_, -, -, rfl⟩ := h1; exact fun _ _ => rfl

/-- A call on one vector: what C104 says, and which variables are assigned. -/
theorem one_good {I : Impl V O} {mn : Nat} {mkA : Bool} {L : Lawful I mn mkA} (hW : 64 ≤ W) (hm : (I.mx : Int) < 2 ^ (W - 1))
    (hfix : I.reservable = false → mn = I.mx) {c : CS V O} {b : AS V} (t : Containers.Tracks L c b) {m : Call V} (y : Nat) (hp : m.Pre L.cfg b) :
    ∃ e b' c', m.mean L.cfg y b = some (e, b') ∧ (StdProg.call m y fun b => .ret b : StdProg V Bool).run I W mn c = some (e, c') ∧
      Containers.Tracks L c' b' ∧ Frame (I.own c.o) c.h (I.own c'.o) c'.h ∧ ∀ x, b'.pos x = none → c'.its x = c.its x := by
  obtain ⟨e, b', c', h1, h2, h3, h4⟩ := C104_program_partial (L := L) hW hm hfix (StdProg.call m y fun b => .ret b : StdProg V Bool) t ⟨hp, fun _ _ => trivial⟩
  obtain ⟨u, hu, hask⟩ := hp
  obtain ⟨h', o', e1, r1, f1, p1⟩ := Call.good (L := L) t.rep t.fresh t.vars hfix m hu hask
  have hmean : m.mean L.cfg y b = some (e, b') := by
    have h1 : ((m.mean L.cfg y b).bind fun x => some (x.1, x.2)) = some (e, b') := h1
    simpa using h1
  refine ⟨e, b', c', hmean, h2, h3, h4, fun x hx => ?_⟩
  simp only [StdProg.run, e1] at h2
  cases hs : (m.end_ L.cfg u b.s).2 <;> rw [hs] at h2 <;> simp only [if_true, Bool.false_eq_true, if_false] at h2
  · cases hg : m.gives b with
    | none => rw [hg] at h2; cases h2; rfl
    | some p =>
      rw [hg] at h2
      simp only [Option.map_some, Option.some.injEq, Prod.mk.injEq] at h2
      obtain ⟨-, rfl⟩ := h2
      simp only [CS.set]
      by_cases hxy : x = y
      · exfalso
        have hne : ¬ m.early L.cfg.mx = true := by
          intro he; simp only [Call.end_, if_pos he] at hs; cases hs
        simp only [Call.end_, if_neg hne] at hs
        simp only [Call.mean, hu, Option.map_some, if_neg hne, Option.some.injEq, Prod.mk.injEq] at hmean
        rw [← hmean.2] at hx
        simp only at hx
        rw [if_pos ⟨hxy, hs, by simp [hg]⟩, hg] at hx
        cases hx
      · rw [if_neg hxy]
  · cases h2; rfl

/-- One function of vector `i` in a program. -/
theorem Tracks.one (KL : K.Laws L inv) (hW : 64 ≤ W) (hm : (K.I.mx : Int) < 2 ^ (W - 1)) {c : CState V O} {a : AState A} (t : Tracks K inv c a) {i : Nat} {b : AS V}
    (hb : a.of K i = some b) {m : Call V} (y : Nat) (hp : m.Pre K.q b) {f : O → Option (Call V)} (hf : ∀ o, c.obj i = some o → f o = some m) :
    ∃ x a' c', a.one K i m y = some (x, a') ∧ c.one K W i f y = some (x, c') ∧ Tracks K inv c' a' := by
  obtain ⟨o, s, ho, ha, hs, v, t1⟩ := t.at_ KL hb
  rw [← KL.cfg] at hp
  obtain ⟨e, b', c', h1, h2, h3, h4, h6⟩ := one_good hW hm KL.fix t1 y hp
  rw [KL.cfg] at h1
  refine ⟨.flag e, a.put K i b', ⟨c'.h, upd c.obj i (some c'.o), outward i c.its c'.its⟩, ?_, ?_, t.put KL ho h3 h4 h6⟩
  · simp only [AState.one, hb, Option.bind_some, h1, Option.map_some]
  · simp only [CState.one, ho, hf o ho, h2]

/-- What is at the place of a vector. -/
theorem Tracks.slots (KL : K.Laws L inv) {c : CState V O} {a : AState A} (t : Tracks K inv c a) {i : Nat} {o : O} {s : A} (ho : c.obj i = some o) (ha : a.obj i = some s) :
    c.slots K.I (place K.I i o) = some ((K.view s).2, cells (K.view s).1) := by
  have v : inv c.h o s := t.rel.good i o s ho ha
  have hm : K.I.mem c.h o = ((K.view s).2, cells (K.view s).1) := (KL.rep v).mem
  simp only [place]
  cases hp : K.I.ptr o with
  | none => simp only [CState.slots, ho, Option.bind_some, hp, Option.isNone_none, if_true, hm]
  | some b =>
    have := (KL.block v hp).1
    simp only [CState.slots, this, Option.map_some, hm]

theorem place_ne (KL : K.Laws L inv) {c : CState V O} {a : AState A} (t : Tracks K inv c a) {i j : Nat} {o o' : O} (ho : c.obj i = some o) (ho' : c.obj j = some o')
    (hij : i ≠ j) : place K.I j o' ≠ place K.I i o := by
  have hap := t.rel.apart i j o o' ho ho' hij
  rw [KL.own] at hap
  simp only [place]
  cases h1 : K.I.ptr o with
  | none =>
    cases h2 : K.I.ptr o' with
    | none => simpa using Ne.symm hij
    | some b => simp
  | some b =>
    cases h2 : K.I.ptr o' with
    | none => simp
    | some b' =>
      simp only [ne_eq, Place.block.injEq]
      rintro rfl
      exact hap b' h1 h2

theorem elems_eq {a : AState A} {i : Nat} {s : A} (ha : a.obj i = some s) : a.elems K i = (K.view s).1 := by simp only [AState.elems, ha]; rfl

theorem Tracks.val (KL : K.Laws L inv) {c : CState V O} {a : AState A} (t : Tracks K inv c a) {x j k : Nat} (hx : a.pos x = some (j, k)) {v : V}
    (hv : (a.elems K j)[k]? = some v) : ∃ o, c.obj j = some o ∧ c.its x = some ⟨place K.I j o, k⟩ ∧ c.load K.I ⟨place K.I j o, k⟩ = some v := by
  have hk := (List.getElem?_eq_some_iff.1 hv).1
  obtain ⟨o, s, e1, e2, e3, e4⟩ := t.vars x j k hx
  have hl := (KL.rep (t.rel.good j o s e1 e2)).2
  rw [elems_eq e2] at hk hv
  refine ⟨o, e1, e3, ?_⟩
  simp only [CState.load, t.slots KL e1 e2, Option.bind_some, readCell, cells, if_pos (show k < (K.view s).2 by omega), hv]

/-- Arguments are what the specification says. -/
theorem Tracks.seen (KL : K.Laws L inv) {c : CState V O} {a : AState A} (t : Tracks K inv c a) {i : Nat} {o : O} (ho : c.obj i = some o) {b : AS V}
    (hb : a.of K i = some b) {v : Val V} {w : V} (hv : (valOf K a i v).now b = some w) : seen K.I c i o v = valOf K a i v := by
  obtain ⟨s, h1, rfl⟩ := of_some hb
  cases v with
  | fresh v => rfl
  | elem x =>
    cases hx : a.pos x with
    | none => simp only [valOf, hx, Val.now, Option.bind_none] at hv; cases hv
    | some p =>
      obtain ⟨j, k⟩ := p
      simp only [valOf, hx] at hv ⊢
      by_cases hj : j = i
      · subst hj
        simp only [if_true] at hv ⊢
        obtain ⟨o', s', e1, e2, e3, e4⟩ := t.vars x j k hx
        rw [ho] at e1; cases e1
        simp only [Several.seen, e3, if_true]
      · simp only [if_neg hj] at hv ⊢
        cases hg : (a.elems K j)[k]? with
        | none => simp only [hg, Val.now, hx, Option.bind_some, if_neg hj, Option.bind_none] at hv; cases hv
        | some u =>
          obtain ⟨o', e1, e2, e3⟩ := t.val KL hx hg
          simp only [Several.seen, e2, if_neg (place_ne KL t ho e1 (Ne.symm hj)), e3]

/-- A range of another vector. -/
theorem Tracks.range (KL : K.Laws L inv) {c : CState V O} {a : AState A} (t : Tracks K inv c a) {i y z : Nat} {vs : List V} (h : a.range K i y z = some vs) :
    ∃ p q, c.its y = some p ∧ c.its z = some q ∧ c.loadRange K.I p q = some vs := by
  simp only [AState.range] at h
  split at h
  · rename_i p q hy hz
    obtain ⟨j, k⟩ := p
    obtain ⟨j', l⟩ := q
    simp only at h
    split at h
    · rename_i hc
      obtain ⟨rfl, -, hkl⟩ := hc
      cases h
      obtain ⟨o, s, e1, e2, e3, e4⟩ := t.vars y j k hy
      obtain ⟨o', s', d1, d2, d3, d4⟩ := t.vars z j l hz
      rw [e1] at d1; cases d1
      rw [e2] at d2; cases d2
      refine ⟨_, _, e3, d3, ?_⟩
      have hl := (KL.rep (t.rel.good j o s e1 e2)).2
      simp only [CState.loadRange]
      rw [if_pos ⟨trivial, hkl⟩, t.slots KL e1 e2, elems_eq e2]
      simp only [Option.bind_some]
      generalize (K.view s).1 = xs at *
      generalize (K.view s).2 = cap at *
      have hr := readFrom_eq cap (xs.take l) (by simp; omega) (l - k) k (by simp; omega)
      have key : ∀ n s, s + n ≤ l → readFrom cap (cells (xs.take l)) s n = readFrom cap (cells xs) s n := by
        intro n
        induction n with
        | zero => intro s _; rfl
        | succ n ih =>
          intro s hs
          simp only [readFrom, readCell, cells, ih (s + 1) (by omega)]
          rw [List.getElem?_take_of_lt (by omega)]
      rw [key _ _ (by omega)] at hr
      exact hr
    · cases h
  · cases h

/-- Steps that concern whole vectors. -/
theorem Tracks.whole (KL : K.Laws L inv) {c : CState V O} {a : AState A} (t : Tracks K inv c a) {op : WOp (GOp V) B C X} (hp : K.S.pre a.obj op) (f : Nat → Option Nat)
    (hf : ∀ h' obj', (K.S.step (c.h, c.obj) op = Out.of (K.S.spec a.obj op).2 (h', obj')) →
      ∀ i j o s o', c.obj i = some o → a.obj i = some s → f i = some j → obj' j = some o' → place K.I j o' = place K.I i o) :
    ∃ x a' c', a.whole K op f = some (x, a') ∧ outcome c.its (K.S.step (c.h, c.obj) op) = some (x, c') ∧ Tracks K inv c' a' := by
  obtain ⟨⟨h', obj'⟩, e, r⟩ := Sys.step_ok KL.laws (c.h, c.obj) a.obj op t.rel hp
  refine ⟨_, _, ⟨h', obj', c.its⟩, rfl, ?_, r, fun x j k hx => ?_⟩
  · rw [e]; cases (K.S.spec a.obj op).2 <;> rfl
  · simp only [Option.bind_eq_some_iff] at hx
    obtain ⟨⟨i, l⟩, hx1, j', hx2, s', hx3, hx4⟩ := hx
    split at hx4
    · rename_i hl
      cases hx4
      obtain ⟨o, s, e1, e2, e3, e4⟩ := t.vars x i l hx1
      obtain ⟨o', ho', -⟩ := r.obj hx3
      exact ⟨o', s', ho', hx3, by rw [hf h' obj' e i j o s o' e1 e2 hx2 ho']; exact e3, hl⟩
    · cases hx4

theorem place_same {I : Impl V O} {o o' : O} (h : I.ptr o' = I.ptr o) (i : Nat) : place I i o' = place I i o := by simp only [place, h]

theorem place_moved {I : Impl V O} {o o' : O} (h : I.ptr o' = I.ptr o ∧ I.ptr o ≠ none) (i j : Nat) : place I j o' = place I i o := by
  obtain ⟨h1, h2⟩ := h
  simp only [place, h1]
  cases hp : I.ptr o with
  | none => exact absurd hp h2
  | some b => rfl

/-- An operand of which `Goes` is said. -/
theorem holds_place {I : Impl V O} {g : Goes} {o me other : O} (h : g.holds I o me other) {i j l : Nat} (hl : g.to i j = some l) {o' : O}
    (h1 : l = i → g = .stay → o' = me) (h2 : l = j → g = .other → o' = other) : place I l o' = place I i o := by
  cases g with
  | stay => cases hl; rw [h1 rfl rfl]; exact place_same h _
  | other => cases hl; rw [h2 rfl rfl]; exact place_moved h _ _
  | lost => cases hl

theorem outOf {T : Type} {r : Out T} {f : Bool} {w : T} (h : r = Out.of f w) : r = .ok w ∨ r = .exn w := by
  cases f
  · exact .inl h
  · exact .inr h

/-- One step of a program. -/
theorem Step.good (KL : K.Laws L inv) (hW : 64 ≤ W) (hm : (K.I.mx : Int) < 2 ^ (W - 1)) {c : CState V O} {a : AState A} (t : Tracks K inv c a) (s : Step V B C X)
    (hp : s.Pre K W a) : ∃ x a' c', s.mean K a = some (x, a') ∧ s.run K W c = some (x, c') ∧ Tracks K inv c' a' := by
  cases s with
  | look i l =>
    obtain ⟨b, hb, hp⟩ := hp
    obtain ⟨o, s, ho, ha, hs, v, t1⟩ := t.at_ KL hb
    rw [← KL.cfg] at hp
    obtain ⟨x, b', c', h1, h2, h3, h4⟩ := Look.good (L := L) hW hm t1 l hp
    exact ⟨x, _, _, by simp only [Step.mean, hb, Option.bind_some, h1, Option.map_some], by simp only [Step.run, ho, h2], t.put KL ho h3 h4 (keeps_vars h2 h1)⟩
  | call i m y =>
    obtain ⟨b, hb, hp⟩ := hp
    simp only [Step.mean, Step.run]
    refine t.one KL hW hm hb y hp fun o ho => ?_
    obtain ⟨u, hu, -⟩ := hp
    rw [Call.args_congr hu fun v w hv => t.seen KL ho hb hv]
  | insertFrom i x y z thr al w =>
    obtain ⟨b, vs, hb, hr, hp⟩ := hp
    obtain ⟨p, q, e1, e2, e3⟩ := t.range KL hr
    obtain ⟨r, a', c', h1, h2, h3⟩ := t.one (c := c) KL hW hm hb w hp (f := fun _ =>
      match c.its y, c.its z with
      | some p, some r => (c.loadRange K.I p r).map fun vs => .insertRange x (items vs thr) al
      | _, _ => none) (fun o _ => by simp only [e1, e2, e3, Option.map_some])
    exact ⟨r, a', c', by simp only [Step.mean, hr, Option.bind_some, h1], h2, h3⟩
  | peek x =>
    obtain ⟨⟨j, k⟩, hx, hk⟩ := hp
    have hg : (a.elems K j)[k]? = some ((a.elems K j)[k]) := List.getElem?_eq_getElem hk
    obtain ⟨o, e0, e1, e2⟩ := t.val KL hx hg
    exact ⟨_, a, c, by simp only [Step.mean, hx, Option.bind_some, hg, Option.map_some]; rfl, by simp only [Step.run, e1, e2, Option.map_some], t⟩
  | poke x v =>
    obtain ⟨⟨j, k⟩, hx, hk⟩ := hp
    simp only at hk
    have hg : (a.elems K j)[k]? = some ((a.elems K j)[k]) := List.getElem?_eq_getElem hk
    obtain ⟨o, e0, e1, e2⟩ := t.val KL hx hg
    obtain ⟨s, hs, -⟩ : ∃ s, a.obj j = some s ∧ True := by
      obtain ⟨_, s, _, h, _⟩ := t.vars x j k hx; exact ⟨s, h, trivial⟩
    have hb : ∃ b, a.of K j = some b := by simp only [AState.of, hs]; exact ⟨_, rfl⟩
    obtain ⟨b, hb⟩ := hb
    obtain ⟨o', s', ho, ha, hbs, vi, t1⟩ := t.at_ KL hb
    rw [e0] at ho; cases ho
    rw [hs] at ha; cases ha
    have hkb : k < b.s.1.length := by rw [hbs]; rw [elems_eq hs] at hk; exact hk
    obtain ⟨r, h1, h2, h3⟩ := t1.assign hkb v
    have hr : r = K.I.put c.h o (upd (K.I.mem c.h o).2 k (some v)) := by
      simp only [Impl.assignAt] at h1
      split at h1
      · cases h1
      · cases h1; rfl
    have t2 := t.put KL (c' := ⟨r.1, r.2, inward j c.its⟩) e0 h2 h3 (fun _ _ => rfl)
    have hout : outward j c.its (inward j c.its) = c.its := by funext z; exact outward_inward j c.its _ rfl
    simp only [hout] at t2
    refine ⟨.unit, _, _, by simp only [Step.mean, hx, Option.bind_some, hb, Option.map_some], ?_, t2⟩
    cases hpt : K.I.ptr o with
    | none =>
      have hpl : place K.I j o = .object j := by simp only [place, hpt]
      rw [hpl] at e1 e2
      simp only [Step.run, e1, CState.store, e2, e0, Option.map_some, hr]
    | some n =>
      have hpl : place K.I j o = .block n := by simp only [place, hpt]
      rw [hpl] at e1 e2
      obtain ⟨d1, d2⟩ := KL.block vi hpt
      have ho' : upd c.obj j (some o) = c.obj := by
        funext z
        by_cases hz : z = j
        · subst hz; rw [upd_same, e0]
        · exact upd_other _ _ hz
      simp only [Step.run, e1, CState.store, e2, d1, Option.map_some, hr, d2, ho']
  | bin i j b =>
    simp only [Step.mean, Step.run, Step.Pre] at hp ⊢
    refine t.whole KL hp (a.binTo K i j b) fun h' obj' e k l p u o' hk hk' hf ho' => ?_
    obtain ⟨s, s', hA, hA', -⟩ := hp
    obtain ⟨o, ho, v⟩ := t.rel.obj hA
    obtain ⟨o2, ho2, v2⟩ := t.rel.obj hA'
    simp only at ho ho2
    simp only [AState.binTo, hA, hA'] at hf
    by_cases hij : i = j
    · subst hij
      rw [hA] at hA'; cases hA'
      rw [ho] at ho2; cases ho2
      simp only [if_true] at hf
      simp only [Sys.step, ho, if_true] at e
      have hr : ∃ r, (K.S.self b c.h o = .ok r ∨ K.S.self b c.h o = .exn r) ∧ obj' = upd c.obj i (some r.2) := by
        cases hb : K.S.self b c.h o with
        | ok r => rw [hb] at e; rcases outOf e with e | e <;> cases e; exact ⟨r, .inl rfl, rfl⟩
        | exn r => rw [hb] at e; rcases outOf e with e | e <;> cases e; exact ⟨r, .inr rfl, rfl⟩
        | ub => rw [hb] at e; rcases outOf e with e | e <;> cases e
      obtain ⟨r, hr, rfl⟩ := hr
      by_cases hki : k = i
      · subst hki
        rw [ho] at hk; cases hk
        rw [if_pos rfl] at hf
        have hl : l = k := by cases hg : K.selfGoes b <;> rw [hg] at hf <;> cases hf <;> rfl
        subst hl
        rw [upd_same] at ho'; cases ho'
        exact holds_place (KL.self v hr) hf (fun _ _ => rfl) (fun _ _ => rfl)
      · rw [if_neg hki] at hf; cases hf
        rw [upd_other _ _ hki, hk] at ho'; cases ho'; rfl
    · simp only [if_neg hij] at hf
      simp only [Sys.step, ho, ho2, if_neg hij] at e
      have hr : ∃ r, (K.S.bin b c.h o o2 = .ok r ∨ K.S.bin b c.h o o2 = .exn r) ∧ obj' = upd (upd c.obj i (some r.2.1)) j (some r.2.2) := by
        cases hb : K.S.bin b c.h o o2 with
        | ok r => rw [hb] at e; rcases outOf e with e | e <;> cases e; exact ⟨r, .inl rfl, rfl⟩
        | exn r => rw [hb] at e; rcases outOf e with e | e <;> cases e; exact ⟨r, .inr rfl, rfl⟩
        | ub => rw [hb] at e; rcases outOf e with e | e <;> cases e
      obtain ⟨r, hr, rfl⟩ := hr
      have hap := t.rel.apart i j o o2 ho ho2 hij
      rw [KL.own] at hap
      obtain ⟨g1, g2⟩ := KL.bin v v2 hap hr
      by_cases hki : k = i
      · subst hki
        rw [ho] at hk; cases hk
        rw [if_pos rfl] at hf
        refine holds_place g1 hf (fun hl _ => ?_) (fun hl _ => ?_)
        · subst hl; rw [upd_other _ _ hij, upd_same] at ho'; cases ho'; rfl
        · subst hl; rw [upd_same] at ho'; cases ho'; rfl
      · rw [if_neg hki] at hf
        by_cases hkj : k = j
        · subst hkj
          rw [ho2] at hk; cases hk
          rw [if_pos rfl] at hf
          refine holds_place g2 hf (fun hl _ => ?_) (fun hl _ => ?_)
          · subst hl; rw [upd_same] at ho'; cases ho'; rfl
          · subst hl; rw [upd_other _ _ hij, upd_same] at ho'; cases ho'; rfl
        · rw [if_neg hkj] at hf; cases hf
          rw [upd_other _ _ hkj, upd_other _ _ hki, hk] at ho'; cases ho'; rfl
  | make i k =>
    simp only [Step.mean, Step.run, Step.Pre] at hp ⊢
    refine t.whole KL hp some fun h' obj' e n l p u o' hn hn' hf ho' => ?_
    cases hf
    obtain ⟨hnone, -⟩ := hp
    have hni : n ≠ i := by rintro rfl; rw [hnone] at hn'; cases hn'
    have hw := t.rel.absent hnone
    simp only at hw
    simp only [Sys.step, hw] at e
    have : obj' n = c.obj n := by
      cases hb : K.S.ctor k c.h with
      | ub => rw [hb] at e; rcases outOf e with e | e <;> cases e
      | ok r => rw [hb] at e; rcases outOf e with e | e <;> cases e; exact upd_other _ _ hni
      | exn r => rw [hb] at e; rcases outOf e with e | e <;> cases e; rfl
    rw [this, hn] at ho'; cases ho'; rfl
  | makeFrom i j f =>
    simp only [Step.mean, Step.run, Step.Pre] at hp ⊢
    refine t.whole KL hp (a.fromTo K i j f) fun h' obj' e n l p u o' hn hn' hf ho' => ?_
    obtain ⟨hnone, s, hA, -⟩ := hp
    have hni : n ≠ i := by rintro rfl; rw [hnone] at hn'; cases hn'
    have hij : i ≠ j := by rintro rfl; rw [hnone] at hA; cases hA
    have hw := t.rel.absent hnone
    obtain ⟨o2, ho2, v2⟩ := t.rel.obj hA
    simp only at hw ho2
    simp only [Sys.step, hw, ho2] at e
    cases hb : K.S.ctorFrom f c.h o2 with
    | ub => rw [hb] at e; rcases outOf e with e | e <;> cases e
    | ok r =>
      rw [hb] at e
      have e' : obj' = upd (upd c.obj i (some r.2.1)) j (some r.2.2) := by rcases outOf e with e | e <;> cases e; rfl
      subst e'
      by_cases hnj : n = j
      · subst hnj
        rw [ho2] at hn; cases hn
        simp only [AState.fromTo, if_true, hA, Option.bind_some] at hf
        refine holds_place (KL.fromOk v2 hb) hf (fun hl _ => ?_) (fun hl _ => ?_)
        · subst hl; rw [upd_same] at ho'; cases ho'; rfl
        · subst hl; rw [upd_other _ _ hij, upd_same] at ho'; cases ho'; rfl
      · simp only [AState.fromTo, if_neg hnj, Option.some.injEq] at hf
        subst hf
        rw [upd_other _ _ hnj, upd_other _ _ hni, hn] at ho'; cases ho'; rfl
    | exn r =>
      rw [hb] at e
      have e' : obj' = upd c.obj j (some r.2) := by rcases outOf e with e | e <;> cases e; rfl
      subst e'
      by_cases hnj : n = j
      · subst hnj
        rw [ho2] at hn; cases hn
        simp only [AState.fromTo, if_true, hA, Option.bind_some] at hf
        rcases KL.fromExn v2 hb with hg | hg
        · rw [hg] at hf; cases hf
          rw [upd_other _ _ hij, hw] at ho'; cases ho'
        · by_cases hl : l = n
          · subst hl
            rw [upd_same] at ho'; cases ho'
            exact holds_place hg hf (fun _ _ => rfl) (fun hl _ => absurd hl.symm hij)
          · cases hq : K.fromGoes f s <;> rw [hq] at hf <;> cases hf
            · exact absurd rfl hl
            · rw [upd_other _ _ hij, hw] at ho'; cases ho'
      · simp only [AState.fromTo, if_neg hnj, Option.some.injEq] at hf
        subst hf
        rw [upd_other _ _ hnj, hn] at ho'; cases ho'; rfl
  | drop i =>
    simp only [Step.mean, Step.run, Step.Pre] at hp ⊢
    refine t.whole KL hp _ fun h' obj' e n l p u o' hn hn' hf ho' => ?_
    obtain ⟨s, hA⟩ := hp
    obtain ⟨o, ho, -⟩ := t.rel.obj hA
    simp only at ho
    simp only [Sys.step, ho] at e
    have hni : n ≠ i := by rintro rfl; simp at hf
    have hl : n = l := by simpa [hni] using hf
    subst hl
    cases hb : K.S.dtor c.h o with
    | none => rw [hb] at e; rcases outOf e with e | e <;> cases e
    | some r =>
      rw [hb] at e
      rcases outOf e with e | e <;> cases e
      rw [upd_other _ _ hni, hn] at ho'; cases ho'; rfl

/-- Programs with vectors of a kind. -/
theorem program (KL : K.Laws L inv) (hW : 64 ≤ W) (hm : (K.I.mx : Int) < 2 ^ (W - 1)) :
    ∀ (P : Prog V B C X R) {c : CState V O} {a : AState A}, Tracks K inv c a → P.Pre K W a →
      ∃ r a' c', P.mean K a = some (r, a') ∧ P.run K W c = some (r, c') ∧ Tracks K inv c' a'
  | .ret r, c, a, t, _ => ⟨r, a, c, rfl, rfl, t⟩
  | .step s k, c, a, t, ⟨h1, h2⟩ => by
    obtain ⟨x, a1, c1, e1, e2, t1⟩ := Step.good KL hW hm t s h1
    obtain ⟨r, a2, c2, e3, e4, t2⟩ := program KL hW hm (k x) t1 (h2 _ e1)
    exact ⟨r, a2, c2, by simp only [Prog.mean, e1, Option.bind_some, e3], by simp only [Prog.run, e2, e4], t2⟩

/-! ### The laws of the kinds -/

theorem sbo_ptr {W sc mx : Nat} {hp : Sbo.Params W sc mx} {h : Heap V} {o : Sbo V} {s : SV V} (v : Sbo.binv hp h o s) (hl : sc < s.2) : Sbo.ptr o ≠ none := by
  obtain ⟨b, hb, -⟩ := (sboShows_of v).large hl
  rw [hb]; simp

/-- What moving does with pointers. -/
theorem sbo_other {W sc mx : Nat} {hp : Sbo.Params W sc mx} {h : Heap V} {o o' me : Sbo V} {s : SV V} (v : Sbo.binv hp h o s) (he : Sbo.ptr o' = Sbo.ptr o) :
    (if sc < s.2 then Goes.other else .lost).holds (sbo V W sc mx) o me o' := by
  split
  · rename_i hl; exact ⟨he, sbo_ptr v hl⟩
  · trivial

theorem sbo_swap {W sc mx : Nat} {hp : Sbo.Params W sc mx} {h : Heap V} {o t : Sbo V} {a b : SV V} (v : Sbo.binv hp h o a) (vt : Sbo.binv hp h t b) {r : Heap V × Sbo V × Sbo V}
    (e : Sbo.swap W sc mx h o t = some r) : Sbo.ptr r.2.1 = Sbo.ptr t ∧ Sbo.ptr r.2.2 = Sbo.ptr o := by
  obtain ⟨tmp, e1, vtmp, p1⟩ := Sbo.moveToEmpty_ok (Sbo.blank_clean (V := V) (W := W) (sc := sc)) v
  obtain ⟨h1, o2, e2, v2, p2, f2⟩ := Sbo.moveAssign_ok (Sbo.blank_inv (hp := hp) h) vt (fun c q => (Sbo.blank_own c q).elim)
  have f2' : Frame (fun _ => False) h (fun _ => False) h1 :=
    f2.congr (fun b => ⟨fun q => (Sbo.blank_own b q).elim, False.elim⟩) (fun b => Iff.rfl)
  have vtmp1 := Sbo.inv_keep vtmp (h' := h1) (fun c _ => f2'.keep c id id)
  obtain ⟨h2, t2, e3, v3, p3, f3⟩ := Sbo.moveAssign_ok (Sbo.blank_inv (hp := hp) h1) vtmp1 (fun c q => (Sbo.blank_own c q).elim)
  simp only [Sbo.swap, e1, e2, e3, Option.map_eq_some_iff] at e
  obtain ⟨_, -, rfl⟩ := e
  exact ⟨p2, p3.trans p1⟩

theorem sbo_selfSwap {W sc mx : Nat} {hp : Sbo.Params W sc mx} {h : Heap V} {o : Sbo V} {a : SV V} (v : Sbo.binv hp h o a) {r : Heap V × Sbo V}
    (e : Sbo.selfSwap W sc mx h o = some r) : Sbo.ptr r.2 = Sbo.ptr o := by
  obtain ⟨tmp, e1, vtmp, p1⟩ := Sbo.moveToEmpty_ok (Sbo.blank_clean (V := V) (W := W) (sc := sc)) v
  obtain ⟨h2, t2, e3, v3, p3, f3⟩ := Sbo.moveAssign_ok (Sbo.blank_inv (hp := hp) h) vtmp (fun c q => (Sbo.blank_own c q).elim)
  simp only [Sbo.selfSwap, e1, e3, Option.map_eq_some_iff] at e
  obtain ⟨_, -, rfl⟩ := e
  exact p3.trans p1

theorem bind_snd {O : Type} {z : Out (Heap V × O)} {t : O} {r : Heap V × O × O} (hz : z.bind (fun r => .ok (r.1, r.2, t)) (fun r => (r.1, r.2, t)) = .ok r ∨
    z.bind (fun r => .ok (r.1, r.2, t)) (fun r => (r.1, r.2, t)) = .exn r) : r.2.2 = t := by
  cases z <;> rcases hz with hz | hz <;> cases hz <;> rfl

theorem sbo_laws {W sc mx : Nat} (hp : Sbo.Params W sc mx) : (sboKind V W sc mx).Laws (Sbo.lawful hp) (Sbo.binv hp) where
  laws := Sbo.laws hp
  cfg := rfl
  fix := by intro h; cases h
  own := rfl
  rep := fun v => v
  pack := fun r => ⟨r, rfl⟩
  block := by
    intro h o s b v hb
    rcases v.1.1 with ⟨c, n, rfl, hn⟩ | ⟨b', cap, n, Bk, rfl, hn, hb', hcap, h4, h5⟩
    · cases hb
    · cases hb
      have hme : (sboKind V W sc mx).I.mem h ⟨.large b cap (splitSize W mx n).1, (splitSize W mx n).2, true⟩ = (Bk.cap, Bk.cell) :=
        Sbo.mem_large (sc := sc) (cap := cap) (f := (splitSize W mx n).1) (l := (splitSize W mx n).2) hb'
      rw [hme]
      exact ⟨hb', fun c => Sbo.put_large hb' c⟩
  bin := by
    intro h o t s s' b r v vt hap e
    have e : Sbo.bin W sc mx b h o t = .ok r ∨ Sbo.bin W sc mx b h o t = .exn r := e
    cases b with
    | move =>
      obtain ⟨h', o', e1, v', ep, fr⟩ := Sbo.moveAssign_ok v vt hap
      simp only [Sbo.bin, e1] at e
      rcases e with e | e <;> cases e
      exact ⟨trivial, sbo_other vt ep⟩
    | swap =>
      simp only [Sbo.bin] at e
      cases hs : Sbo.swap W sc mx h o t with
      | none => rw [hs] at e; rcases e with e | e <;> cases e
      | some q =>
        rw [hs] at e
        rcases e with e | e <;> cases e
        obtain ⟨p1, p2⟩ := sbo_swap v vt hs
        exact ⟨sbo_other v p2, sbo_other vt p1⟩
    | copy thr left al =>
      simp only [Sbo.bin, Sbo.inv_read vt] at e
      exact ⟨trivial, by rw [bind_snd e]; rfl⟩
    | copyTrivial al =>
      simp only [Sbo.bin, Sbo.inv_read vt] at e
      exact ⟨trivial, by rw [bind_snd e]; rfl⟩
  self := by
    intro h o s b r v e
    have e : Sbo.self W sc mx b h o = .ok r ∨ Sbo.self W sc mx b h o = .exn r := e
    show Sbo.ptr r.2 = Sbo.ptr o
    cases b with
    | swap =>
      simp only [Sbo.self] at e
      cases hs : Sbo.selfSwap W sc mx h o with
      | none => rw [hs] at e; rcases e with e | e <;> cases e
      | some q =>
        rw [hs] at e
        rcases e with e | e <;> cases e
        exact sbo_selfSwap v hs
    | move | copy _ _ _ | copyTrivial _ => rcases e with e | e <;> cases e; rfl
  fromOk := by
    intro h t s f r v e
    have e : Sbo.ctorFrom W sc mx f h t = .ok r := e
    cases f with
    | move =>
      obtain ⟨o', e1, v', ep⟩ := Sbo.moveToEmpty_ok (Sbo.blank_clean (V := V) (W := W) (sc := sc)) v
      simp only [Sbo.ctorFrom, e1] at e
      cases e
      exact sbo_other v ep
    | copy thr al =>
      simp only [Sbo.ctorFrom, Sbo.inv_read v] at e
      split at e <;> cases e
      rfl
  fromExn := by
    intro h t s f r v e
    have e : Sbo.ctorFrom W sc mx f h t = .exn r := e
    cases f with
    | move =>
      obtain ⟨o', e1, v', ep⟩ := Sbo.moveToEmpty_ok (Sbo.blank_clean (V := V) (W := W) (sc := sc)) v
      simp only [Sbo.ctorFrom, e1] at e
      cases e
    | copy thr al =>
      simp only [Sbo.ctorFrom, Sbo.inv_read v] at e
      split at e <;> cases e
      exact .inr rfl

theorem stat_laws (N : Nat) : (statKind V N).Laws (Stat.lawful N) (sinv N) where
  laws := Stat.laws N
  cfg := rfl
  fix := fun _ => rfl
  own := rfl
  rep := fun v => Stat.rep_iff.2 ⟨v, rfl⟩
  pack := by
    intro h o xs cap r
    obtain ⟨h1, rfl⟩ := Stat.rep_iff.1 r
    exact ⟨h1, rfl⟩
  block := by intro h o s b v hb; cases hb
  bin := by
    intro h o t s s' b r v vt hap e
    cases b <;> exact ⟨by first | trivial | rfl, rfl⟩
  self := by intro h o s b r v e; rfl
  fromOk := by
    intro h t s f r v e
    cases f <;> first | trivial | rfl
  fromExn := by
    intro h t s f r v e
    cases f <;> exact .inr (by first | trivial | rfl)

/-! ## C110 -/

/-- The program at its beginning, when there is nothing. -/
theorem start_tracks : Tracks K inv ⟨⟨fun _ => none, 0⟩, fun _ => none, fun _ => none⟩ ⟨fun _ => none, fun _ => none⟩ :=
  ⟨Sys.rel_start, fun x i k h => by cases h⟩

/-- C110: a program with any number of `sbo_vector`s (or `string`s) and iterators of them that keeps to the rules (valid iterators, existing elements, and what C25 to C28 and C30
add) is defined; everything it reads and which steps throw are as for sequences with positions, whatever throws and whatever allocation fails. If it destroys all its
vectors, nothing stays allocated.

Partial: the rules are more than those of the standard; see C104 and C30. -/
theorem C110_sbo_vectors_partial {W sc mx : Nat} (hp : Sbo.Params W sc mx) (hW : 64 ≤ W) (hm : (mx : Int) < 2 ^ (W - 1)) (P : Prog V (BBin V) (BCtor V) BFrom R)
    (hP : P.Pre (sboKind V W sc mx) W ⟨fun _ => none, fun _ => none⟩) :
    ∃ r a c, P.mean (sboKind V W sc mx) ⟨fun _ => none, fun _ => none⟩ = some (r, a) ∧
      P.run (sboKind V W sc mx) W ⟨⟨fun _ => none, 0⟩, fun _ => none, fun _ => none⟩ = some (r, c) ∧
      Tracks (sboKind V W sc mx) (Sbo.binv hp) c a ∧ ((∀ i, a.obj i = none) → ∀ n, c.h.blk n = none) := by
  obtain ⟨r, a, c, e1, e2, t⟩ := program (sbo_laws hp) hW hm P start_tracks hP
  exact ⟨r, a, c, e1, e2, t, fun h n => t.rel.empty h n⟩

/-- C110 for `static_vector`. -/
theorem C110_static_vectors_partial {W N : Nat} (hW : 64 ≤ W) (hm : (N : Int) < 2 ^ (W - 1)) (P : Prog V (SBin V) (SCtor V) SFrom R)
    (hP : P.Pre (statKind V N) W ⟨fun _ => none, fun _ => none⟩) :
    ∃ r a c, P.mean (statKind V N) ⟨fun _ => none, fun _ => none⟩ = some (r, a) ∧
      P.run (statKind V N) W ⟨⟨fun _ => none, 0⟩, fun _ => none, fun _ => none⟩ = some (r, c) ∧ Tracks (statKind V N) (sinv N) c a := by
  obtain ⟨r, a, c, e1, e2, t⟩ := program (stat_laws N) hW hm P start_tracks hP
  exact ⟨r, a, c, e1, e2, t⟩

/-- Iterators of large vectors follow their elements: after a swap or a move an iterator to an element of `j` is an iterator to the same element, which is now in `i`; the
address has not changed, and reading it gives the same. -/
theorem C110_iterators_follow {W sc mx : Nat} (hp : Sbo.Params W sc mx) (hW : 64 ≤ W) (hm : (mx : Int) < 2 ^ (W - 1)) {c : CState V (Sbo V)} {a : AState (SV V)}
    (t : Tracks (sboKind V W sc mx) (Sbo.binv hp) c a) {i j x k : Nat} (hij : i ≠ j) {s s' : SV V} (hi : a.obj i = some s) (hj : a.obj j = some s') (hl : sc < s'.2)
    (hx : a.pos x = some (j, k)) (hk : k < s'.1.length) (b : BBin V) (hb : b = .move ∨ b = .swap) :
    ∃ c' a', (Step.bin i j b).run (sboKind V W sc mx) W c = some (.flag false, c') ∧ (Step.bin i j b).mean (sboKind V W sc mx) a = some (.flag false, a') ∧
      Tracks (sboKind V W sc mx) (Sbo.binv hp) c' a' ∧ c'.its x = c.its x ∧ a'.pos x = some (i, k) ∧ a'.obj i = some s' ∧
      (Step.peek x).run (sboKind V W sc mx) W c' = some (.val s'.1[k], c') := by
  have hpre : (Step.bin i j b).Pre (sboKind V W sc mx) W a := by
    refine ⟨s, s', hi, hj, ?_⟩
    rw [if_neg hij]
    rcases hb with rfl | rfl <;> exact trivial
  obtain ⟨y, a', c', h1, h2, h3⟩ := Step.good (sbo_laws hp) hW hm t (.bin i j b) hpre
  have hsp : (sboKind V W sc mx).S.spec a.obj (.bin i j b) = (upd (upd a.obj i (some s')) j (some (bbinS sc mx b s s').1.2), false) := by
    simp only [Sys.spec, hi, hj, if_neg hij]
    rcases hb with rfl | rfl <;> rfl
  have hmean := h1
  simp only [Step.mean, AState.whole, hsp, Option.some.injEq, Prod.mk.injEq] at h1
  obtain ⟨rfl, ha'⟩ := h1
  have hobj : a'.obj i = some s' := by rw [← ha']; show upd (upd _ _ _) _ _ i = _; rw [upd_other _ _ hij, upd_same]
  have hgo : a.binTo (sboKind V W sc mx) i j b j = some i := by
    simp only [AState.binTo, hi, hj, if_neg hij, if_neg (Ne.symm hij), if_true]
    rcases hb with rfl | rfl <;> simp [sboKind, hl, Goes.to]
  have hpos : a'.pos x = some (i, k) := by
    rw [← ha']
    simp only [hx, Option.bind_some, hgo]
    rw [upd_other _ _ hij, upd_same]
    simp only [Option.bind_some]
    exact if_pos (show k ≤ s'.1.length by omega)
  have hits : c'.its = c.its := by
    simp only [Step.run] at h2
    revert h2
    cases (sboKind V W sc mx).S.step (c.h, c.obj) (.bin i j b) <;> intro h2 <;> cases h2 <;> rfl
  refine ⟨c', a', h2, hmean, h3, by rw [hits], hpos, hobj, ?_⟩
  have hel : a'.elems (sboKind V W sc mx) i = s'.1 := elems_eq hobj
  obtain ⟨o, d1, d2, d3⟩ := h3.val (sbo_laws hp) hpos (v := s'.1[k]) (by rw [hel]; exact List.getElem?_eq_getElem hk)
  simp only [Step.run, d2, d3, Option.map_some]

/-- In a small-buffer vector that is small, and in a static vector, iterators are pointers into the object; in one that is large, into a block. -/
theorem C110_place {W sc mx : Nat} (hp : Sbo.Params W sc mx) {c : CState V (Sbo V)} {a : AState (SV V)} (t : Tracks (sboKind V W sc mx) (Sbo.binv hp) c a) {i x k : Nat} {s : SV V}
    (hi : a.obj i = some s) (hx : a.pos x = some (i, k)) : ∃ p, c.its x = some p ∧ p.slot = k ∧ (p.place = .object i ↔ s.2 = sc) := by
  obtain ⟨o, s', e1, e2, e3, e4⟩ := t.vars x i k hx
  rw [hi] at e2; cases e2
  have v := t.rel.good i o s e1 hi
  have sh := sboShows_of v
  refine ⟨_, e3, rfl, ?_⟩
  simp only [place]
  constructor
  · intro h
    by_cases hl : sc < s.2
    · obtain ⟨b, hb, -⟩ := sh.large hl
      rw [show (sboKind V W sc mx).I.ptr o = some b from hb] at h; cases h
    · have := sh.fits; omega
  · intro h
    rw [show (sboKind V W sc mx).I.ptr o = none from sh.small h]

/-- After `swap` of two static vectors an iterator refers to the element with the same index in the same vector. -/
theorem C110_static_swap {W N : Nat} (hW : 64 ≤ W) (hm : (N : Int) < 2 ^ (W - 1)) {c : CState V (Stat V)} {a : AState (List V)} (t : Tracks (statKind V N) (sinv N) c a)
    {i j x k : Nat} (hij : i ≠ j) {xs ys : List V} (hi : a.obj i = some xs) (hj : a.obj j = some ys) (hx : a.pos x = some (i, k)) (hk : k < ys.length) :
    ∃ c' a', (Step.bin i j .swap).run (statKind V N) W c = some (.flag false, c') ∧ (Step.bin i j .swap).mean (statKind V N) a = some (.flag false, a') ∧
      Tracks (statKind V N) (sinv N) c' a' ∧ a'.pos x = some (i, k) ∧ (Step.peek x).run (statKind V N) W c' = some (.val ys[k], c') := by
  have hpre : (Step.bin i j .swap).Pre (statKind V N) W a := ⟨xs, ys, hi, hj, by rw [if_neg hij]; trivial⟩
  obtain ⟨y, a', c', h1, h2, h3⟩ := Step.good (stat_laws N) hW hm t (.bin i j .swap) hpre
  have hsp : (statKind V N).S.spec a.obj (.bin i j .swap) = (upd (upd a.obj i (some ys)) j (some xs), false) := by
    simp only [Sys.spec, hi, hj, if_neg hij]; rfl
  have hmean := h1
  simp only [Step.mean, AState.whole, hsp, Option.some.injEq, Prod.mk.injEq] at h1
  obtain ⟨rfl, ha'⟩ := h1
  have hobj : a'.obj i = some ys := by rw [← ha']; show upd (upd _ _ _) _ _ i = _; rw [upd_other _ _ hij, upd_same]
  have hpos : a'.pos x = some (i, k) := by
    rw [← ha']
    have hgo : a.binTo (statKind V N) i j .swap i = some i := by simp only [AState.binTo, hi, hj, if_neg hij, if_true]; rfl
    simp only [hx, Option.bind_some, hgo]
    rw [upd_other _ _ hij, upd_same]
    simp only [Option.bind_some]
    exact if_pos (show k ≤ ys.length by omega)
  refine ⟨c', a', h2, hmean, h3, hpos, ?_⟩
  have hel : a'.elems (statKind V N) i = ys := elems_eq hobj
  obtain ⟨o, d1, d2, d3⟩ := h3.val (stat_laws N) hpos (v := ys[k]) (by rw [hel]; exact List.getElem?_eq_getElem hk)
  simp only [Step.run, d2, d3, Option.map_some]

/-! ## Examples -/

/-- Deciding the precondition of a step, for the examples; no `at`. `d` decides that of steps with whole vectors. -/
def Step.legal (K : Kind V O A B C X) (d : (Nat → Option A) → WOp (GOp V) B C X → Bool) (a : AState A) : Step V B C X → Bool
  | .look i l => (a.of K i).any fun b => l.legal b
  | .call i m _ => (a.of K i).any fun b => match (m.args (valOf K a i)).op b with | some u => decide ((m.args (valOf K a i)).Asks K.q b u) | none => false
  | .insertFrom i x y z thr al _ => (a.of K i).any fun b => (a.range K i y z).any fun vs =>
    match (Call.insertRange x (items vs thr) al).op b with | some u => decide ((Call.insertRange x (items vs thr) al).Asks K.q b u) | none => false
  | .peek x | .poke x _ => (a.pos x).any fun p => decide (p.2 < (a.elems K p.1).length)
  | .bin i j b => d a.obj (.bin i j b)
  | .make i c => d a.obj (.make i c)
  | .makeFrom i j f => d a.obj (.makeFrom i j f)
  | .drop i => d a.obj (.drop i)

/-- Deciding the precondition of a program. -/
def Prog.legal (K : Kind V O A B C X) (d : (Nat → Option A) → WOp (GOp V) B C X → Bool) : Prog V B C X R → AState A → Bool
  | .ret _, _ => true
  | .step s k, a => s.legal K d a && (match s.mean K a with | some x => (k x.1).legal K d x.2 | none => true)

theorem Step.pre_of_legal {d : (Nat → Option A) → WOp (GOp V) B C X → Bool} (hd : ∀ w op, d w op = true → K.S.pre w op) {a : AState A} {s : Step V B C X}
    (h : s.legal K d a = true) : s.Pre K W a := by
  cases s <;> simp only [Step.legal, Option.any_eq_true, decide_eq_true_eq] at h
  case look => obtain ⟨b, h1, h2⟩ := h; exact ⟨b, h1, Look.pre_of_legal h2⟩
  case call => obtain ⟨b, h1, h2⟩ := h; exact ⟨b, h1, Call.pre_of_legal h2⟩
  case insertFrom => obtain ⟨b, h1, vs, h2, h3⟩ := h; exact ⟨b, vs, h1, h2, Call.pre_of_legal h3⟩
  case peek | poke => exact h
  all_goals exact hd _ _ h

theorem Prog.pre_of_legal {d : (Nat → Option A) → WOp (GOp V) B C X → Bool} (hd : ∀ w op, d w op = true → K.S.pre w op) :
    ∀ {P : Prog V B C X R} {a : AState A}, P.legal K d a = true → P.Pre K W a
  | .ret _, _, _ => trivial
  | .step s k, a, h => by
    simp only [Prog.legal, Bool.and_eq_true] at h
    refine ⟨Step.pre_of_legal hd h.1, fun x hx => ?_⟩
    have := h.2
    rw [hx] at this
    exact pre_of_legal hd this

/-- A program with small-buffer vectors with room for three elements inside: a vector with two elements (small), an iterator to the second; a copy; the first one grows
(large), its iterators are new; it is moved to a third one, the iterator with it; an element is written through it; the range from it is inserted into the copy, which is
large then; the first, small now, gets an element of the third; swap of the first and the third; the iterator is read. -/
def exSbo : Prog Nat (BBin Nat) (BCtor Nat) BFrom (Ans Nat × Ans Nat × Ans Nat × Ans Nat) :=
  .step (.make 0 (.sized [⟨1, false⟩, ⟨2, false⟩] fun _ => false)) fun _ => .step (.look 0 (.first 0)) fun _ => .step (.look 0 (.move 0 1 1)) fun _ =>
  .step (.poke 1 5) fun _ => .step (.makeFrom 1 0 (.copy (fun _ => false) fun _ => false)) fun _ =>
  .step (.call 0 (.push (.elem 1) false fun _ => false) 9) fun _ => .step (.call 0 (.push (.fresh 7) false fun _ => false) 9) fun _ =>
  .step (.look 0 (.first 0)) fun _ => .step (.look 0 (.move 0 2 1)) fun _ => .step (.makeFrom 2 0 .move) fun _ => .step (.poke 1 9) fun _ =>
  .step (.look 1 (.first 2)) fun _ => .step (.look 2 (.last 3)) fun _ => .step (.insertFrom 1 2 1 3 (fun _ => false) (fun _ => false) 4) fun _ =>
  .step (.call 0 (.push (.elem 4) false fun _ => false) 9) fun _ => .step (.bin 0 2 .swap) fun _ => .step (.peek 1) fun x =>
  .step (.look 0 .iterate) fun y => .step (.look 1 .iterate) fun z => .step (.look 2 .iterate) fun w =>
  .step (.drop 2) fun _ => .step (.drop 1) fun _ => .step (.drop 0) fun _ => .ret (x, y, z, w)

/-- What it reads, and the meaning. -/
example : ((exSbo.run (sboKind Nat 64 3 1000) 64 ⟨⟨fun _ => none, 0⟩, fun _ => none, fun _ => none⟩).map (·.1)) =
      some (.val 9, .list [1, 5, 9, 7], .list [9, 7, 1, 5], .list [9]) ∧
    ((exSbo.mean (sboKind Nat 64 3 1000) ⟨fun _ => none, fun _ => none⟩).map (·.1)) = some (.val 9, .list [1, 5, 9, 7], .list [9, 7, 1, 5], .list [9]) := by
  decide +kernel

/-- The hypotheses of `C110_sbo_vectors_partial` for it. -/
example : exSbo.Pre (sboKind Nat 64 3 1000) 64 ⟨fun _ => none, fun _ => none⟩ :=
  Prog.pre_of_legal (d := fun w op => decide ((bsys Nat 64 3 1000).pre w op)) (fun w op h => of_decide_eq_true (p := (bsys Nat 64 3 1000).pre w op) h) (by decide +kernel)

/-- The hypotheses of `C110_iterators_follow` and `C110_place`: a large and a small vector. -/
example : ∃ (c : CState Nat (Sbo Nat)) (a : AState (SV Nat)), Tracks (sboKind Nat 64 3 1000) (Sbo.binv params3) c a ∧ a.obj 0 = some ([8], 3) ∧
    a.obj 1 = some ([1, 2, 3, 4], 4) ∧ a.pos 0 = some (1, 0) := by
  obtain ⟨r, a, c, e1, -, t, -⟩ := C110_sbo_vectors_partial (V := Nat) (R := Unit) params3 (by omega) (by decide)
    (.step (.make 0 (.sized [⟨8, false⟩] fun _ => false)) fun _ => .step (.make 1 (.sized [⟨1, false⟩, ⟨2, false⟩, ⟨3, false⟩, ⟨4, false⟩] fun _ => false)) fun _ =>
      .step (.look 1 (.first 0)) fun _ => .ret ())
    (Prog.pre_of_legal (d := fun w op => decide ((bsys Nat 64 3 1000).pre w op)) (fun w op h => of_decide_eq_true (p := (bsys Nat 64 3 1000).pre w op) h) (by decide +kernel))
  refine ⟨c, a, t, ?_⟩
  cases e1
  exact ⟨rfl, rfl, rfl⟩

/-- C110: a pointer into a vector object is good only while the elements are in it: when they are in the heap, reading, writing or copying a range through it is undefined. -/
theorem C110_inside_is_gone {I : Impl V O} {c : CState V O} {i : Nat} (hi : ∀ o, c.obj i = some o → (I.ptr o).isSome = true) (k : Nat) (v : V) (r : Ptr) :
    c.load I ⟨.object i, k⟩ = none ∧ c.store I ⟨.object i, k⟩ v = none ∧ c.loadRange I ⟨.object i, k⟩ r = none := by
  have : c.slots I (.object i) = none := by
    rw [CState.slots]
    cases ho : c.obj i with
    | none => rfl
    | some o =>
      have := hi o ho
      cases hp : I.ptr o with
      | none => rw [hp] at this; cases this
      | some b => simp only [Option.bind_some, hp, Option.isNone_some, Bool.false_eq_true, if_false]
  have hl : c.load I ⟨.object i, k⟩ = none := by simp only [CState.load, this, Option.bind_none]
  refine ⟨hl, by simp only [CState.store, hl], ?_⟩
  simp only [CState.loadRange, this, Option.bind_none, ite_self]

/-- A vector with its elements in block 3. -/
example : ∀ o, (⟨⟨fun _ => none, 0⟩, fun _ => some ⟨.large 3 8 [], 1, true⟩, fun _ => none⟩ : CState Nat (Sbo Nat)).obj 0 = some o →
    ((sboKind Nat 64 3 1000).I.ptr o).isSome = true := by
  intro o h; cases h; rfl

/-- Reading through an iterator of a small vector that was moved or swapped is undefined: the elements are somewhere else. -/
example : ((Prog.step (.make 0 (.sized [⟨1, false⟩] fun _ => false)) fun _ => .step (.look 0 (.first 0)) fun _ => .step (.makeFrom 1 0 .move) fun _ => .step (.peek 0) fun x => .ret x :
      Prog Nat (BBin Nat) (BCtor Nat) BFrom (Ans Nat)).run (sboKind Nat 64 3 1000) 64 ⟨⟨fun _ => none, 0⟩, fun _ => none, fun _ => none⟩).isNone = true ∧
    ((Prog.step (.make 0 (.sized [⟨1, false⟩] fun _ => false)) fun _ => .step (.make 1 (.sized [⟨1, false⟩, ⟨2, false⟩, ⟨3, false⟩, ⟨4, false⟩] fun _ => false)) fun _ =>
      .step (.look 0 (.first 0)) fun _ => .step (.bin 0 1 .swap) fun _ => .step (.peek 0) fun x => .ret x :
      Prog Nat (BBin Nat) (BCtor Nat) BFrom (Ans Nat)).run (sboKind Nat 64 3 1000) 64 ⟨⟨fun _ => none, 0⟩, fun _ => none, fun _ => none⟩).isNone = true := by
  decide +kernel

/-- A program with static vectors for three elements: two vectors and an iterator into each; they are swapped and the iterators read; the first one is move-assigned from
the second, whose elements are 0 afterwards, and the iterator into the second is read; an element of it is inserted into the first, which is full then; another one throws. -/
def exStat : Prog Nat (SBin Nat) (SCtor Nat) SFrom (List (Ans Nat)) :=
  .step (.make 0 (.sized [⟨1, false⟩, ⟨2, false⟩])) fun _ => .step (.make 1 (.sized [⟨3, false⟩])) fun _ => .step (.look 0 (.first 0)) fun _ => .step (.look 1 (.first 1)) fun _ =>
  .step (.bin 0 1 .swap) fun _ => .step (.peek 0) fun x => .step (.peek 1) fun y => .step (.bin 0 1 (.move (fun _ => 0) 0)) fun _ => .step (.peek 1) fun z =>
  .step (.look 0 (.last 2)) fun _ => .step (.call 0 (.insert 2 (.elem 1) false fun _ => false) 2) fun _ => .step (.look 0 .iterate) fun w =>
  .step (.call 0 (.push (.elem 1) true fun _ => false) 9) fun _ => .step (.make 2 (.sized [⟨1, false⟩, ⟨2, false⟩, ⟨3, false⟩, ⟨4, false⟩])) fun e =>
  .step (.drop 0) fun _ => .step (.drop 1) fun _ => .ret [x, y, z, w, e]

/-- What it reads, and the meaning. -/
example : ((exStat.run (statKind Nat 3) 64 ⟨⟨fun _ => none, 0⟩, fun _ => none, fun _ => none⟩).map (·.1)) =
      some [.val 3, .val 1, .val 0, .list [1, 2, 0], .flag true] ∧
    ((exStat.mean (statKind Nat 3) ⟨fun _ => none, fun _ => none⟩).map (·.1)) = some [.val 3, .val 1, .val 0, .list [1, 2, 0], .flag true] := by
  decide +kernel

/-- The hypotheses of `C110_static_vectors_partial` for it. -/
example : exStat.Pre (statKind Nat 3) 64 ⟨fun _ => none, fun _ => none⟩ :=
  Prog.pre_of_legal (d := fun w op => decide ((ssys Nat 3).pre w op)) (fun w op h => of_decide_eq_true (p := (ssys Nat 3).pre w op) h) (by decide +kernel)

/-- The hypotheses of `C110_static_swap`. -/
example : ∃ (c : CState Nat (Stat Nat)) (a : AState (List Nat)), Tracks (statKind Nat 3) (sinv 3) c a ∧ a.obj 0 = some [1, 2] ∧ a.obj 1 = some [3] ∧
    a.pos 0 = some (0, 0) := by
  obtain ⟨r, a, c, e1, -, t⟩ := C110_static_vectors_partial (V := Nat) (R := Unit) (W := 64) (N := 3) (by omega) (by decide)
    (.step (.make 0 (.sized [⟨1, false⟩, ⟨2, false⟩])) fun _ => .step (.make 1 (.sized [⟨3, false⟩])) fun _ => .step (.look 0 (.first 0)) fun _ => .ret ())
    (Prog.pre_of_legal (d := fun w op => decide ((ssys Nat 3).pre w op)) (fun w op h => of_decide_eq_true (p := (ssys Nat 3).pre w op) h) (by decide +kernel))
  refine ⟨c, a, t, ?_⟩
  cases e1
  exact ⟨rfl, rfl, rfl⟩

end Verif.Containers.Several
