import Verif.Tv.Optional

/-!
# Giving a variant or an optional a part of its own value (property C90)

`expression = std::move(expression[negation].operand)`: the new value is made from an
object that lives inside of the value that is replaced. `C21` and `C22` take the argument
of an operation as a value that is known before the call. Here the argument is a place:
it is read at the moment at which the code reads it, and a part of a value can only be
read while the value is alive.
-/

namespace Verif.Tv

open Verif

variable {V : Type}

/-- Where the argument of an operation lives. -/
inductive Src (V : Type) where
  /-- An object that is not a part of the target. -/
  | elsewhere (x : V)
  /-- A part of the value of the target (the whole value if `part = some`). -/
  | inside (part : V → Option V)

/-- The argument is a part of the target. -/
def Src.isInside : Src V → Bool
  | .elsewhere _ => false
  | .inside _ => true

/-- The object that the argument refers to while the target has the value `v`; `none`: the
value has no such part. -/
def Src.at (src : Src V) (v : V) : Option V :=
  match src with
  | .elsewhere x => some x
  | .inside p => p v

/-- A constructor of the new value from the argument: what it makes, whether it is
`noexcept`, and from which arguments it throws (if it is not `noexcept`). -/
structure Make (V : Type) where
  nothrow : Bool
  val : V → V
  throws : V → Bool

/-- Constructing from `x` throws. -/
def Make.fails (m : Make V) (x : V) : Bool := !m.nothrow && m.throws x

namespace Var

/-- Reading the argument: of a part of the target, there has to be a live value. -/
def readSrc (s : Var V) : Src V → Res V
  | .elsewhere x => .ok x
  | .inside p =>
    match s.data with
    | some (_, v) => match p v with
      | some x => .ok x
      | none => .ub
    | none => .ub

/-- source/tv/variant.cpp 216-229 `emplace_impl`, with an argument that may live in the
variant: if the construction is `noexcept` (for `tv::insert` and assignment, the call of
`value_to_function`, source/bounded/value_to_function.cpp 21-26, is `noexcept`, so this is
decided by the constructor), the active member is destroyed before the argument is read
(219-221), otherwise a temporary is made first (225-227). -/
def emplaceSrc (s : Var V) (k : Nat) (m : Make V) (src : Src V) : Out (Var V) :=
  if m.nothrow then
    s.destroyActive.andThen fun t =>
      match t.readSrc src with
      | .ok x => t.replaceActive k (m.val x)
      | _ => .ub
  else
    match s.readSrc src with
    | .ok x =>
      if m.throws x then .exn s
      else s.destroyActive.andThen fun t => t.replaceActive k (m.val x)
    | _ => .ub

/-- source/tv/variant.cpp 251-264 `assign(other)` and 159-177 `operator=(T && value)`,
with an argument that may live in the variant: the same alternative is assigned (what the
assignment operator of the alternative does with a part of its own object is the affair of
the alternative: `a` gives its effect), another one is emplaced. The write of the index in
260 repeats what `emplace` did. -/
def assignSrc (s : Var V) (k : Nat) (m : Make V) (a : Asg V) (src : Src V) : Out (Var V) :=
  match s.active with
  | .ok (i, _) =>
    if i = k then
      match s.readSrc src with
      | .ok x => s.assignMember (m.val x) a
      | _ => .ub
    else (s.emplaceSrc k m src).andThen fun t => .ok { t with idx := k }
  | _ => .ub

end Var

/-! ## Variants -/

/-- A variant that holds the value `v` of the alternative `i`. -/
def Var.holding (i : Nat) (v : V) : Var V := ⟨i, some (i, v)⟩

/-- **C90.** Emplacing from an argument that is not a part of the variant, or with a
constructor that is not `noexcept`: the variant holds what the constructor makes of the
argument as it was before the call; if the constructor throws, nothing has changed. -/
theorem C90_variant_emplace_partial (i k : Nat) (v x : V) (m : Make V) (src : Src V)
    (hx : src.at v = some x) (h : src.isInside = false ∨ m.nothrow = false) :
    (Var.holding i v).emplaceSrc k m src =
      if m.fails x then .exn (Var.holding i v) else .ok (Var.holding k (m.val x)) := by
  cases src with
  | elsewhere y =>
    simp only [Src.at, Option.some.injEq] at hx
    subst hx
    cases hm : m.nothrow <;> cases ht : m.throws y <;>
      simp [Var.emplaceSrc, Var.holding, Var.readSrc, Var.destroyActive, Var.active,
        Var.replaceActive, Make.fails, hm, ht]
  | inside p =>
    simp only [Src.isInside, Bool.true_eq_false, false_or] at h
    simp only [Src.at] at hx
    cases ht : m.throws x <;>
      simp [Var.emplaceSrc, Var.holding, Var.readSrc, Var.destroyActive, Var.active,
        Var.replaceActive, Make.fails, h, ht, hx]

/-- **C90 is violated** for every constructor that is `noexcept`, and for every part of
the value: the part is read after it has been destroyed. (`noexcept` moves are the common
case.) -/
theorem C90_variant_emplace_undefined (i k : Nat) (v : V) (m : Make V) (p : V → Option V)
    (h : m.nothrow = true) : (Var.holding i v).emplaceSrc k m (.inside p) = .ub := by
  simp [Var.emplaceSrc, Var.holding, Var.readSrc, Var.destroyActive, Var.active, h]

/-- The two cases together: emplacing from an existing argument is undefined exactly if
the argument is a part of the variant and the constructor is `noexcept`. -/
theorem C90_variant_emplace_iff (i k : Nat) (v x : V) (m : Make V) (src : Src V)
    (hx : src.at v = some x) :
    (Var.holding i v).emplaceSrc k m src = .ub ↔ src.isInside = true ∧ m.nothrow = true := by
  constructor
  · intro hu
    by_cases h : src.isInside = false ∨ m.nothrow = false
    · rw [C90_variant_emplace_partial i k v x m src hx h] at hu
      split at hu <;> cases hu
    · rw [not_or] at h
      exact ⟨by simpa using h.1, by simpa using h.2⟩
  · rintro ⟨h1, h2⟩
    cases src with
    | elsewhere y => simp [Src.isInside] at h1
    | inside p => exact C90_variant_emplace_undefined i k v m p h2

/-- **C90.** Assigning from an argument of the alternative that the variant holds: the
assignment operator of the alternative is called with the argument, whether or not the
argument is a part of the variant, and nothing is destroyed. -/
theorem C90_variant_assign_same (i : Nat) (v x : V) (m : Make V) (a : Asg V) (src : Src V)
    (hx : src.at v = some x) :
    (Var.holding i v).assignSrc i m a src =
      match a with
      | .ok => .ok (Var.holding i (m.val x))
      | .exn left => .exn (Var.holding i left) := by
  cases src with
  | elsewhere y =>
    simp only [Src.at, Option.some.injEq] at hx
    subst hx
    cases a <;> simp [Var.assignSrc, Var.holding, Var.readSrc, Var.active, Var.assignMember]
  | inside p =>
    simp only [Src.at] at hx
    cases a <;> simp [Var.assignSrc, Var.holding, Var.readSrc, Var.active, Var.assignMember, hx]

/-- **C90.** Assigning from an argument of another alternative, under the condition of
`C90_variant_emplace_partial`. -/
theorem C90_variant_assign_other_partial (i k : Nat) (hik : i ≠ k) (v x : V) (m : Make V)
    (a : Asg V) (src : Src V) (hx : src.at v = some x)
    (h : src.isInside = false ∨ m.nothrow = false) :
    (Var.holding i v).assignSrc k m a src =
      if m.fails x then .exn (Var.holding i v) else .ok (Var.holding k (m.val x)) := by
  have e := C90_variant_emplace_partial i k v x m src hx h
  have ha : (Var.holding i v).active = .ok (i, v) := by simp [Var.active, Var.holding]
  simp only [Var.assignSrc, ha, if_neg hik, e]
  split <;> simp [Var.holding]

/-- **C90 is violated** by assignment: if the new alternative is `noexcept` to construct
(copy or move), assigning a part of another alternative reads a destroyed object. -/
theorem C90_variant_assign_undefined (i k : Nat) (hik : i ≠ k) (v : V) (m : Make V)
    (a : Asg V) (p : V → Option V) (h : m.nothrow = true) :
    (Var.holding i v).assignSrc k m a (.inside p) = .ub := by
  have ha : (Var.holding i v).active = .ok (i, v) := by simp [Var.active, Var.holding]
  simp only [Var.assignSrc, ha, if_neg hik, C90_variant_emplace_undefined i k v m p h, Out.andThen_ub]

/-! ## Optionals -/

namespace VStore

/-- The argument as an object of the variant behind the optional. -/
def liftSrc : Src V → Src (Option V)
  | .elsewhere x => .elsewhere (some x)
  | .inside p => .inside fun o => (o.bind p).map some

/-- The constructor of the value as a constructor of a member of the variant. -/
def liftMake (m : Make V) : Make (Option V) :=
  ⟨m.nothrow, fun o => o.map m.val, fun o => o.elim false m.throws⟩

/-- source/tv/optional.cpp 52-54, 341-343 `emplace`. -/
def emplaceSrc (s : VStore V) (m : Make V) (src : Src V) : Out (VStore V) :=
  Var.emplaceSrc s 1 (liftMake m) (liftSrc src)

/-- source/tv/optional.cpp 276-283, 349-351 `optional = value`. -/
def assignValueSrc (s : VStore V) (m : Make V) (a : Asg V) (src : Src V) : Out (VStore V) :=
  if s.isInit then
    match s.readSrc (liftSrc src) with
    | .ok (some x) =>
      match a with
      | .ok => .ok { s with data := some (1, some (m.val x)) }
      | .exn l => .exn { s with data := some (1, some l) }
    | _ => .ub
  else s.emplaceSrc m src

end VStore

/-- **C90.** Emplacing into an optional without spare representation: as for variants. -/
theorem C90_optional_emplace_partial (v x : V) (m : Make V) (src : Src V)
    (hx : src.at v = some x) (h : src.isInside = false ∨ m.nothrow = false) :
    (VStore.mkSome v).emplaceSrc m src =
      if m.fails x then .exn (VStore.mkSome v) else .ok (VStore.mkSome (m.val x)) := by
  have hx' : (VStore.liftSrc src).at (some v) = some (some x) := by
    cases src with
    | elsewhere y => simpa [VStore.liftSrc, Src.at] using hx
    | inside p =>
      simp only [Src.at] at hx
      simp [VStore.liftSrc, Src.at, hx]
  have h' : (VStore.liftSrc src).isInside = false ∨ (VStore.liftMake m).nothrow = false := by
    cases src <;> simpa [VStore.liftSrc, Src.isInside, VStore.liftMake] using h
  have e := C90_variant_emplace_partial 1 1 (some v) (some x) (VStore.liftMake m) (VStore.liftSrc src) hx' h'
  have f : (VStore.liftMake m).fails (some x) = m.fails x := rfl
  rw [f] at e
  exact e

/-- **C90 is violated** by `insert(optional, *optional)` if the constructor is
`noexcept`. -/
theorem C90_optional_emplace_undefined (v : V) (m : Make V) (p : V → Option V)
    (h : m.nothrow = true) : (VStore.mkSome v).emplaceSrc m (.inside p) = .ub :=
  C90_variant_emplace_undefined 1 1 (some v) (VStore.liftMake m) _ h

/-- **C90.** `optional = value` of an optional with a value is the assignment of the
value, also for a part of the optional. -/
theorem C90_optional_assign (v x : V) (m : Make V) (a : Asg V) (src : Src V)
    (hx : src.at v = some x) :
    (VStore.mkSome v).assignValueSrc m a src =
      match a with
      | .ok => .ok (VStore.mkSome (m.val x))
      | .exn left => .exn (VStore.mkSome left) := by
  cases src with
  | elsewhere y =>
    simp only [Src.at, Option.some.injEq] at hx
    subst hx
    cases a <;> simp [VStore.assignValueSrc, VStore.mkSome, VStore.isInit, VStore.liftSrc, Var.readSrc]
  | inside p =>
    simp only [Src.at] at hx
    cases a <;> simp [VStore.assignValueSrc, VStore.mkSome, VStore.isInit, VStore.liftSrc, Var.readSrc, hx]

/-- **C90.** `optional = value` of an empty optional, which has no parts. -/
theorem C90_optional_assign_empty (x : V) (m : Make V) (a : Asg V) :
    (VStore.mkNone : VStore V).assignValueSrc m a (.elsewhere x) =
      if m.fails x then .exn VStore.mkNone else .ok (VStore.mkSome (m.val x)) := by
  have e := C90_variant_emplace_partial 0 1 (none : Option V) (some x) (VStore.liftMake m)
    (.elsewhere (some x)) rfl (Or.inl rfl)
  have f : (VStore.liftMake m).fails (some x) = m.fails x := rfl
  rw [f] at e
  exact e

/-! ## Optionals with a spare representation -/

namespace Slot

/-- Reading the argument. If the target has been made empty and the argument is the value
of the target itself, what is read is the spare representation: a type whose copy
constructor copies the representation (`trivial`) makes another one; for all other types
a value that does not exist is read. -/
inductive Read (V : Type) where
  | value (x : V)
  | spare
  | bad
  deriving DecidableEq, Repr

/-- The argument, read when the storage is `s`. `whole`: the argument is the value of the
optional itself. -/
def readSrc (s : Slot V) (whole trivial : Bool) : Src V → Read V
  | .elsewhere x => .value x
  | .inside p =>
    match s with
    | .live v => match p v with
      | some x => .value x
      | none => .bad
    | .null => if whole && trivial then .spare else .bad
    | .raw => .bad

/-- source/tv/optional.cpp 178-181 `emplace`: the storage is made empty before the
argument is read, whether or not the construction is `noexcept`. -/
def emplaceSrc (s : Slot V) (m : Make V) (whole trivial : Bool) (src : Src V) : Out (Slot V) :=
  s.uninitialize.andThen fun t =>
    match t.readSrc whole trivial src with
    | .value x => t.construct ⟨m.val x, m.nothrow, m.throws x⟩
    | .spare => .ok .null
    | .bad => .ub

/-- source/tv/optional.cpp 276-283, 349-351 `optional = value`. -/
def assignValueSrc (s : Slot V) (m : Make V) (a : Asg V) (src : Src V) : Out (Slot V) :=
  match s.isInit with
  | .ok true =>
    match s.readSrc false false src with
    | .value x => s.assignMember (m.val x) a
    | _ => .ub
  | .ok false => s.emplaceSrc m false false src
  | _ => .ub

/-- source/tv/optional.cpp 124-158: copy and move assignment from an optional that is a
part of the value of the target (`other v` is what that optional holds). An empty `other`
is not read any more after the target has been made empty (132-133, 150-151). -/
def assignPart (s : Slot V) (other : V → Option V) (m : Make V) (a : Asg V) : Out (Slot V) :=
  match s with
  | .live v =>
    match other v with
    | none => s.uninitialize
    | some x => s.assignMember (m.val x) a
  | _ => .ub

end Slot

/-- **C90.** Emplacing into an optional with a spare representation, from an argument that
is not a part of it; if the constructor throws, there is no object at all afterwards (see
C21). -/
theorem C90_nullable_emplace_partial (o : Option V) (x : V) (m : Make V) (whole trivial : Bool) :
    (slotOf o).emplaceSrc m whole trivial (.elsewhere x) =
      if m.fails x then .exn .raw else .ok (.live (m.val x)) := by
  cases o <;> cases hf : m.fails x <;>
    simp [slotOf, Slot.emplaceSrc, Slot.uninitialize, Slot.isInit, Slot.destroy, Slot.constructNull,
      Slot.readSrc, Slot.construct, Ctor.fails, Make.fails] at * <;> simp_all

/-- **C90 is violated** for every part of the value and every constructor: the part is
read after it has been destroyed. -/
theorem C90_nullable_emplace_undefined (v : V) (m : Make V) (whole trivial : Bool)
    (p : V → Option V) (h : (whole && trivial) = false) :
    (Slot.live v).emplaceSrc m whole trivial (.inside p) = .ub := by
  simp [Slot.emplaceSrc, Slot.uninitialize, Slot.isInit, Slot.destroy, Slot.constructNull,
    Slot.readSrc, h]

/-- **C90 is violated** for types whose copy constructor copies the representation, such
as integers: `insert(optional, *optional)` makes the optional empty. -/
theorem C90_nullable_emplace_empties (v : V) (m : Make V) :
    (Slot.live v).emplaceSrc m true true (.inside some) = .ok .null := by
  simp [Slot.emplaceSrc, Slot.uninitialize, Slot.isInit, Slot.destroy, Slot.constructNull,
    Slot.readSrc]

/-- **C90.** `optional = value` for the storage with a spare representation: the value is
assigned, also for a part of the optional; nothing is destroyed. -/
theorem C90_nullable_assign (v x : V) (m : Make V) (a : Asg V) (src : Src V)
    (hx : src.at v = some x) :
    (Slot.live v).assignValueSrc m a src =
      match a with
      | .ok => .ok (.live (m.val x))
      | .exn left => .exn (.live left) := by
  cases src with
  | elsewhere y =>
    simp only [Src.at, Option.some.injEq] at hx
    subst hx
    cases a <;> simp [Slot.assignValueSrc, Slot.isInit, Slot.readSrc, Slot.assignMember]
  | inside p =>
    simp only [Src.at] at hx
    cases a <;> simp [Slot.assignValueSrc, Slot.isInit, Slot.readSrc, Slot.assignMember, hx]

/-- **C90.** `optional = optional->part`, where the part is an optional of the same type:
the target is empty if the part was, otherwise the value is assigned from the part. -/
theorem C90_nullable_assign_part (v : V) (other : V → Option V) (m : Make V) (a : Asg V) :
    (Slot.live v).assignPart other m a =
      match other v with
      | none => .ok .null
      | some x => match a with
        | .ok => .ok (.live (m.val x))
        | .exn left => .exn (.live left) := by
  cases h : other v with
  | none => simp [Slot.assignPart, h, Slot.uninitialize, Slot.isInit, Slot.destroy, Slot.constructNull]
  | some x => cases a <;> simp [Slot.assignPart, h, Slot.assignMember]

/-! ## The operations are those of C21 and C22 for arguments from elsewhere -/

theorem emplaceSrc_elsewhere (s : Var V) (k : Nat) (m : Make V) (x : V) :
    s.emplaceSrc k m (.elsewhere x) = s.emplace k ⟨m.val x, m.nothrow, m.throws x⟩ := rfl

theorem nullable_emplaceSrc_elsewhere (s : Slot V) (m : Make V) (w t : Bool) (x : V) :
    s.emplaceSrc m w t (.elsewhere x) = s.doInit ⟨m.val x, m.nothrow, m.throws x⟩ := rfl

/-! ## Concrete cases -/

/-- An expression: alternative 0 is a number, alternative 1 is a negation with an operand
(here: lists, whose tail is the operand). -/
def exampleOperand : List Nat → Option (List Nat)
  | [] => none
  | _ :: xs => some xs

/-- Making a value by copying the argument, for examples. -/
def exampleMove (nothrow : Bool) : Make (List Nat) := ⟨nothrow, id, fun _ => false⟩

example : (Src.inside exampleOperand).at [1, 5] = some [5] := rfl

/-- A copy that may throw is made first. -/
example : (Var.holding 1 [1, 5]).assignSrc 0 (exampleMove false) .ok (.inside exampleOperand) =
    .ok (Var.holding 0 [5]) := by decide

/-- **C90 is violated**: the negation is replaced by its operand, with a `noexcept` move
constructor. -/
theorem C90_variant_assign_violated :
    (Var.holding 1 [1, 5]).assignSrc 0 (exampleMove true) .ok (.inside exampleOperand) = .ub := by decide

/-- **C90 is violated**: an optional integer with a value is given its own value and is
empty. -/
theorem C90_nullable_emplace_violated :
    (Slot.live 5).emplaceSrc ⟨true, id, fun _ => false⟩ true true (.inside some) = .ok (.null : Slot Nat) := by
  decide

example : (Slot.live [1, 5]).assignPart exampleOperand (exampleMove true) .ok = .ok (.live [5]) := by decide

end Verif.Tv
