import Verif.Tv.Variant

/-!
# `tv::optional` over any history (property C21)

Two storages: `variant<none_t, T>` (source/tv/optional.cpp 27-79) and, for types with a
spare representation, the value itself with one representation set aside for "nothing"
(source/tv/optional.cpp 84-217). Objects of element type are constructed, assigned and
destroyed individually; any constructor or assignment may throw.
-/

namespace Verif.Tv

open Verif

variable {V : Type}

/-- Operations on a family of optionals, numbered by `Nat`. -/
inductive OOp (V : Type) where
  /-- `optional()` / `optional(none)` (304-305). -/
  | createNone (i : Nat)
  /-- `optional(value)`, `optional(lazy_init, construct)` (307-315). -/
  | createValue (i : Nat) (c : Ctor V)
  /-- Copy or move construction (317-318); `left` is what the source's value becomes. -/
  | createFrom (i j : Nat) (c : V → Ctor V) (left : V → V)
  /-- `x = none` (345-348). -/
  | setNone (i : Nat)
  /-- `x.emplace(construct)` (341-343). -/
  | emplace (i : Nat) (c : Ctor V)
  /-- `x = value` (349-351). -/
  | assignValue (i : Nat) (c : Ctor V) (a : Asg V)
  /-- `x = y`, copy or move (319-320). -/
  | assign (i j : Nat) (c : V → Ctor V) (a : Asg V) (left : V → V)
  /-- Destructor. -/
  | destroy (i : Nat)

/-! ## Specification -/

/-- The abstract state: every object is a value or nothing. -/
abbrev OAbs (V : Type) := Nat → Option (Option V)

/-- The value that a copied or moved-from optional keeps. -/
def leaveAbs (w : OAbs V) (j : Nat) (left : V → V) : OAbs V := upd w j ((w j).map fun o => o.map left)

/-- What an operation does and whether it throws. A construction that throws changes
nothing; an assignment to an existing value leaves whatever the value's assignment
leaves. -/
def ospec (w : OAbs V) : OOp V → OAbs V × Bool
  | .createNone i => (upd w i (some none), false)
  | .createValue i c => if c.fails then (w, true) else (upd w i (some (some c.val)), false)
  | .createFrom i j c left =>
    match w j with
    | some (some v) =>
      if (c v).fails then (w, true) else (upd (leaveAbs w j left) i (some (some (c v).val)), false)
    | _ => (upd w i (some none), false)
  | .setNone i => (upd w i (some none), false)
  | .emplace i c => if c.fails then (w, true) else (upd w i (some (some c.val)), false)
  | .assignValue i c a =>
    match w i with
    | some (some _) =>
      match a with
      | .ok => (upd w i (some (some c.val)), false)
      | .exn l => (upd w i (some (some l)), true)
    | _ => if c.fails then (w, true) else (upd w i (some (some c.val)), false)
  | .assign i j c a left =>
    match w j with
    | some (some v) =>
      match w i with
      | some (some _) =>
        match a with
        | .exn l => (upd w i (some (some l)), true)
        | .ok =>
          if i = j then (upd w i (some (some (left (c v).val))), false)
          else (upd (leaveAbs w j left) i (some (some (c v).val)), false)
      | _ =>
        if (c v).fails then (w, true) else (upd (leaveAbs w j left) i (some (some (c v).val)), false)
    | _ => (upd w i (some none), false)
  | .destroy i => (upd w i none, false)

/-- A program can only construct new objects and use existing ones. -/
def opre (w : OAbs V) : OOp V → Prop
  | .createNone i => w i = none
  | .createValue i _ => w i = none
  | .createFrom i j _ _ => w i = none ∧ (w j).isSome
  | .setNone i => (w i).isSome
  | .emplace i _ => (w i).isSome
  | .assignValue i _ _ => (w i).isSome
  | .assign i j _ _ _ => (w i).isSome ∧ (w j).isSome
  | .destroy i => (w i).isSome

/-- The additional condition of `C21_nullable_history_partial`: no constructor throws
while it runs inside an existing optional that is (or has just been made) empty.
Constructors of new optionals and assignments to existing values may throw. -/
def noInPlaceThrow (w : OAbs V) : OOp V → Prop
  | .emplace _ c => c.fails = false
  | .assignValue i c _ => w i = some none → c.fails = false
  | .assign i j c _ _ => ∀ v, w i = some none → w j = some (some v) → (c v).fails = false
  | _ => True

/-! ## Storage in a variant (optional.cpp 27-79) -/

/-- optional.cpp 78: `variant<none_t, T>`; `none_t` is `none`, alternative 0 and a value
is `some v`, alternative 1. -/
abbrev VStore (V : Type) := Var (Option V)

namespace VStore

/-- optional.cpp 29-32. -/
def mkNone : VStore V := ⟨0, some (0, none)⟩

/-- optional.cpp 34-42. -/
def mkSome (v : V) : VStore V := ⟨1, some (1, some v)⟩

/-- optional.cpp 44-46. -/
def isInit (s : VStore V) : Bool := decide (s.idx = 1)

/-- optional.cpp 48-50; `none_t` is constructed without exceptions. -/
def uninitialize (s : VStore V) : Out (VStore V) := s.emplace 0 ⟨none, true, false⟩

/-- The constructor of `T` as a constructor of a member of the variant. -/
def lift (c : Ctor V) : Ctor (Option V) := ⟨some c.val, c.nothrow, c.throws⟩

/-- optional.cpp 52-54. -/
def doInit (s : VStore V) (c : Ctor V) : Out (VStore V) := s.emplace 1 (lift c)

/-- optional.cpp 276-283 `assign(target, value)`: assignment to the value, or insertion. -/
def assignValue (s : VStore V) (c : Ctor V) (a : Asg V) : Out (VStore V) :=
  if s.isInit then
    match s.active with
    | .ok (1, _) =>
      match a with
      | .ok => .ok { s with data := some (1, some c.val) }
      | .exn l => .exn { s with data := some (1, some l) }
    | _ => .ub
  else s.doInit c

end VStore

/-- The element constructor as a constructor of either alternative of the variant. -/
def liftC (c : V → Ctor V) : Option V → Ctor (Option V)
  | none => ⟨none, true, false⟩
  | some v => VStore.lift (c v)

/-- The element assignment as an assignment of alternative 1; `none_t` never throws. -/
def liftA (a : Asg V) : Asg (Option V) :=
  match a with
  | .ok => .ok
  | .exn l => .exn (some l)

/-- Run an operation on one existing object. -/
def onObj {S : Type} (w : Nat → Option S) (i : Nat) (f : S → Out S) : Out (Nat → Option S) :=
  match w i with
  | some s => (f s).bind (fun t => .ok (upd w i (some t))) (fun t => upd w i (some t))
  | none => .ub

/-- One operation on optionals stored in a variant. Copy and move construction and
assignment are those of the variant (optional.cpp 28-79 declares none). -/
def ostepV (w : Nat → Option (VStore V)) : OOp V → Out (Nat → Option (VStore V))
  | .createNone i =>
    match w i with
    | some _ => .ub
    | none => .ok (upd w i (some VStore.mkNone))
  | .createValue i c =>
    match w i with
    | some _ => .ub
    | none => if c.fails then .exn w else .ok (upd w i (some (VStore.mkSome c.val)))
  | .createFrom i j c left => vstep w (.createFrom i j (liftC c) (Option.map left))
  | .setNone i => onObj w i VStore.uninitialize
  | .emplace i c => onObj w i fun s => s.doInit c
  | .assignValue i c a => onObj w i fun s => s.assignValue c a
  | .assign i j c a left =>
    -- the assignment of `none_t` does not throw
    match w i with
    | some s => vstep w (.assign i j (liftC c) (if s.isInit then liftA a else .ok) (Option.map left))
    | none => .ub
  | .destroy i => vstep w (.destroy i)

/-- The abstract state of the variants behind the optionals. -/
def toV (a : OAbs V) : VAbs (Option V) := fun i =>
  (a i).map fun o => match o with | none => (0, none) | some v => (1, some v)

/-- The variants represent the optionals. -/
def ORelV (w : Nat → Option (VStore V)) (a : OAbs V) : Prop := VRel 2 w (toV a)

theorem toV_upd (a : OAbs V) (i : Nat) (o : Option (Option V)) :
    toV (upd a i o) = upd (toV a) i (o.map fun o => match o with | none => (0, none) | some v => (1, some v)) := by
  funext k
  unfold toV upd
  split <;> rfl

theorem toV_none {a : OAbs V} {i : Nat} : toV a i = none ↔ a i = none := by
  unfold toV; simp

theorem toV_isSome {a : OAbs V} {i : Nat} : (toV a i).isSome ↔ (a i).isSome := by
  unfold toV; simp

theorem upd_eq_self {X : Type} {w : Nat → X} {i : Nat} {x : X} (h : w i = x) : upd w i x = w := by
  funext k
  unfold upd
  split
  · rename_i h'; rw [h', h]
  · rfl

theorem fails_lift (c : Ctor V) : (VStore.lift c).fails = c.fails := rfl

/-- One operation of an optional in a variant does what the specification says. -/
theorem ostepV_refines (w : Nat → Option (VStore V)) (a : OAbs V) (o : OOp V) (h : ORelV w a) (hp : opre a o) :
    ∃ w', ostepV w o = Out.of (ospec a o).2 w' ∧ ORelV w' (ospec a o).1 := by
  cases o with
  | createNone i =>
    have := vstep_refines 2 w (toV a) (.create i 0 ⟨none, true, false⟩) h ⟨toV_none.mpr hp, by omega⟩
    have e : ostepV w (.createNone i) = vstep w (.create i 0 ⟨none, true, false⟩) := by
      simp only [ostepV, vstep]
      cases w i <;> rfl
    rw [e]
    simpa [ospec, vspec, Ctor.fails, ORelV, toV_upd] using this
  | createValue i c =>
    have := vstep_refines 2 w (toV a) (.create i 1 (VStore.lift c)) h ⟨toV_none.mpr hp, by omega⟩
    have e : ostepV w (.createValue i c) = vstep w (.create i 1 (VStore.lift c)) := by
      simp only [ostepV, vstep]
      cases w i <;> rfl
    rw [e]
    simp only [ospec]
    simp only [vspec, fails_lift] at this
    cases hf : c.fails
    · simpa [ORelV, toV_upd, hf, VStore.lift] using this
    · simpa [ORelV, hf] using this
  | createFrom i j c left =>
    obtain ⟨h1, h2⟩ := hp
    have := vstep_refines 2 w (toV a) (.createFrom i j (liftC c) (Option.map left)) h
      ⟨toV_none.mpr h1, toV_isSome.mpr h2⟩
    obtain ⟨o, hj⟩ := Option.isSome_iff_exists.mp h2
    simp only [ostepV, ospec, hj]
    cases o with
    | none =>
      have e : toV a j = some (0, none) := by simp [toV, hj]
      simp only [vspec, e, liftC, Ctor.fails, Option.map_none] at this
      rw [upd_eq_self e] at this
      simpa [ORelV, toV_upd] using this
    | some v =>
      have e : toV a j = some (1, some v) := by simp [toV, hj]
      simp only [vspec, e, liftC, fails_lift] at this
      cases hf : (c v).fails
      · simpa [ORelV, toV_upd, leaveAbs, hj, hf, VStore.lift] using this
      · simpa [ORelV, hf] using this
  | setNone i =>
    obtain ⟨s, v, k, hw⟩ : ∃ s v k, w i = some s ∧ s = ⟨k, some (k, v)⟩ := by
      obtain ⟨⟨k, v⟩, hv⟩ := Option.isSome_iff_exists.mp (toV_isSome.mpr hp)
      exact ⟨_, v, k, (vrel_some h hv).2, rfl⟩
    obtain ⟨hw, rfl⟩ := hw
    simp only [ostepV, onObj, hw, VStore.uninitialize, ospec, emplace_mk]
    refine ⟨_, rfl, ?_⟩
    unfold ORelV; rw [toV_upd]
    exact vrel_upd h i 0 none (by omega)
  | emplace i c =>
    obtain ⟨s, v, k, hw⟩ : ∃ s v k, w i = some s ∧ s = ⟨k, some (k, v)⟩ := by
      obtain ⟨⟨k, v⟩, hv⟩ := Option.isSome_iff_exists.mp (toV_isSome.mpr hp)
      exact ⟨_, v, k, (vrel_some h hv).2, rfl⟩
    obtain ⟨hw, rfl⟩ := hw
    rcases Bool.eq_false_or_eq_true c.fails with hf | hf
    · simp only [ostepV, onObj, hw, VStore.doInit, ospec, emplace_mk, fails_lift, hf, if_true]
      refine ⟨_, rfl, ?_⟩
      show ORelV (upd w i _) a; rw [upd_eq_self hw]
      exact h
    · simp only [ostepV, onObj, hw, VStore.doInit, ospec, emplace_mk, fails_lift, hf, Bool.false_eq_true, if_false]
      refine ⟨_, rfl, ?_⟩
      unfold ORelV; rw [toV_upd]
      exact vrel_upd h i 1 (some c.val) (by omega)
  | assignValue i c asg =>
    obtain ⟨o, hi⟩ := Option.isSome_iff_exists.mp hp
    simp only [ostepV, onObj, ospec, hi]
    cases o with
    | none =>
      have e : toV a i = some (0, none) := by simp [toV, hi]
      obtain ⟨_, hw⟩ := vrel_some h e
      simp only [hw, VStore.assignValue, VStore.isInit, VStore.doInit,
        show (decide ((0 : Nat) = 1)) = false from rfl, Bool.false_eq_true, if_false, emplace_mk]
      rcases Bool.eq_false_or_eq_true c.fails with hf | hf
      · simp only [fails_lift, hf, if_true]
        refine ⟨_, rfl, ?_⟩
        show ORelV (upd w i _) a; rw [upd_eq_self hw]
        exact h
      · simp only [fails_lift, hf, Bool.false_eq_true, if_false]
        refine ⟨_, rfl, ?_⟩
        unfold ORelV; rw [toV_upd]
        exact vrel_upd h i 1 (some c.val) (by omega)
    | some v =>
      have e : toV a i = some (1, some v) := by simp [toV, hi]
      obtain ⟨_, hw⟩ := vrel_some h e
      simp only [hw, VStore.assignValue, VStore.isInit, active_mk]
      cases asg with
      | ok =>
        refine ⟨_, rfl, ?_⟩
        unfold ORelV; rw [toV_upd]
        exact vrel_upd h i 1 _ (by omega)
      | exn l =>
        refine ⟨_, rfl, ?_⟩
        unfold ORelV; rw [toV_upd]
        exact vrel_upd h i 1 _ (by omega)
  | assign i j c asg left =>
    obtain ⟨h1, h2⟩ := hp
    obtain ⟨oi, hi⟩ := Option.isSome_iff_exists.mp h1
    obtain ⟨oj, hj⟩ := Option.isSome_iff_exists.mp h2
    simp only [ostepV, ospec, hi, hj]
    cases oi with
    | none =>
      have ei : toV a i = some (0, none) := by simp [toV, hi]
      obtain ⟨_, hw⟩ := vrel_some h ei
      have := vstep_refines 2 w (toV a) (.assign i j (liftC c) .ok (Option.map left)) h
        ⟨toV_isSome.mpr h1, toV_isSome.mpr h2⟩
      simp only [hw, VStore.isInit, show (decide ((0 : Nat) = 1)) = false from rfl]
      cases oj with
      | none =>
        have ej : toV a j = some (0, none) := by simp [toV, hj]
        simp only [vspec, ei, ej, if_true, liftC] at this
        by_cases hij : i = j
        · subst hij
          simpa [ORelV, toV_upd] using this
        · simp only [hij, if_false] at this
          rw [show upd (toV a) j (some (0, Option.map left none)) = toV a from upd_eq_self ej] at this
          simpa [ORelV, toV_upd] using this
      | some v =>
        have ej : toV a j = some (1, some v) := by simp [toV, hj]
        simp only [vspec, ei, ej, liftC, fails_lift] at this
        cases hf : (c v).fails
        · simpa [ORelV, toV_upd, leaveAbs, hj, hf, VStore.lift] using this
        · simpa [ORelV, hf] using this
    | some v0 =>
      have ei : toV a i = some (1, some v0) := by simp [toV, hi]
      obtain ⟨_, hw⟩ := vrel_some h ei
      have := vstep_refines 2 w (toV a) (.assign i j (liftC c) (liftA asg) (Option.map left)) h
        ⟨toV_isSome.mpr h1, toV_isSome.mpr h2⟩
      simp only [hw, VStore.isInit, decide_true, if_true]
      cases oj with
      | none =>
        have ej : toV a j = some (0, none) := by simp [toV, hj]
        simp only [vspec, ei, ej, liftC, Ctor.fails] at this
        rw [show upd (toV a) j (some (0, Option.map left none)) = toV a from upd_eq_self ej] at this
        simpa [ORelV, toV_upd] using this
      | some v =>
        have ej : toV a j = some (1, some v) := by simp [toV, hj]
        simp only [vspec, ei, ej, if_true, liftC] at this
        cases asg with
        | exn l => simpa [liftA, ORelV, toV_upd] using this
        | ok =>
          simp only [liftA] at this ⊢
          by_cases hij : i = j
          · simpa [hij, ORelV, toV_upd, VStore.lift] using this
          · simpa [hij, ORelV, toV_upd, leaveAbs, hj, VStore.lift] using this
  | destroy i =>
    have := vstep_refines 2 w (toV a) (.destroy i) h (toV_isSome.mpr hp)
    simpa [ostepV, ospec, vspec, ORelV, toV_upd] using this

/-! ## Storage in a spare representation (optional.cpp 84-217) -/

/-- The storage of a nullable type: no object at all, a live value, or the tombstone. -/
inductive Slot (V : Type) where
  | raw
  | live (v : V)
  | null
  deriving Repr, DecidableEq

namespace Slot

/-- optional.cpp 167-169: `tombstone_traits<T>::index(m_storage.value) != 0`. It reads the
object, so there has to be one (a value or the tombstone). -/
def isInit : Slot V → Res Bool
  | .raw => .ub
  | .live _ => .ok true
  | .null => .ok false

/-- `bounded::destroy(m_storage.value)`. -/
def destroy : Slot V → Out (Slot V)
  | .live _ => .ok .raw
  | _ => .ub

/-- `bounded::construct_at(m_storage.value, construct)`: the lifetime of whatever was in
the storage ends when it is reused, also if the constructor throws. Constructing over a
live value would leak it. -/
def construct (s : Slot V) (c : Ctor V) : Out (Slot V) :=
  match s with
  | .live _ => .ub
  | _ => if c.fails then .exn .raw else .ok (.live c.val)

/-- `bounded::construct_at(m_storage.value, make_uninitialized)` (`noexcept`, 213). -/
def constructNull (s : Slot V) : Out (Slot V) :=
  match s with
  | .live _ => .ub
  | _ => .ok .null

/-- optional.cpp 171-176. -/
def uninitialize (s : Slot V) : Out (Slot V) :=
  match s.isInit with
  | .ok true => s.destroy.andThen constructNull
  | .ok false => s.constructNull
  | _ => .ub

/-- optional.cpp 178-181. -/
def doInit (s : Slot V) (c : Ctor V) : Out (Slot V) := s.uninitialize.andThen fun t => t.construct c

/-- `m_storage.value = value`. -/
def assignMember (s : Slot V) (v : V) (a : Asg V) : Out (Slot V) :=
  match s with
  | .live _ => match a with
    | .ok => .ok (.live v)
    | .exn l => .exn (.live l)
  | _ => .ub

/-- optional.cpp 276-283 `assign(target, value)`. -/
def assignValue (s : Slot V) (c : Ctor V) (a : Asg V) : Out (Slot V) :=
  match s.isInit with
  | .ok true => s.assignMember c.val a
  | .ok false => s.doInit c
  | _ => .ub

/-- optional.cpp 124-158: copy and move assignment. For trivially assignable types the
defaulted assignment copies the representation, which has the same effect. -/
def assignFrom (s other : Slot V) (c : V → Ctor V) (a : Asg V) : Out (Slot V) :=
  match other.isInit, s.isInit with
  | .ok false, _ => s.uninitialize
  | .ok true, .ok false =>
    match other with
    | .live v => s.construct (c v)
    | _ => .ub
  | .ok true, .ok true =>
    match other with
    | .live v => s.assignMember (c v).val a
    | _ => .ub
  | _, _ => .ub

/-- What a copy or a move leaves in the source. -/
def leave (left : V → V) : Slot V → Slot V
  | .live v => .live (left v)
  | s => s

end Slot

/-- One operation on optionals that use a spare representation. -/
def ostepN (w : Nat → Option (Slot V)) : OOp V → Out (Nat → Option (Slot V))
  | .createNone i =>
    match w i with
    | none => .ok (upd w i (some .null))
    | some _ => .ub
  | .createValue i c =>
    match w i with
    | none => if c.fails then .exn w else .ok (upd w i (some (.live c.val)))
    | some _ => .ub
  | .createFrom i j c left =>
    match w i, w j with
    | none, some t =>
      match t.isInit with
      | .ok true =>
        match t with
        | .live v =>
          if (c v).fails then .exn w
          else .ok (upd (upd w j (some (t.leave left))) i (some (.live (c v).val)))
        | _ => .ub
      | .ok false => .ok (upd w i (some .null))
      | _ => .ub
    | _, _ => .ub
  | .setNone i => onObj w i Slot.uninitialize
  | .emplace i c => onObj w i fun s => s.doInit c
  | .assignValue i c a => onObj w i fun s => s.assignValue c a
  | .assign i j c a left =>
    match w j with
    | some t =>
      match w i with
      | some s =>
        (s.assignFrom t c a).bind
          (fun s' => .ok (if i = j then upd w i (some (s'.leave left))
            else upd (upd w j (some (t.leave left))) i (some s')))
          (fun s' => upd w i (some s'))
      | none => .ub
    | none => .ub
  | .destroy i =>
    match w i with
    | some s =>
      -- optional.cpp 160-165
      match s.isInit with
      | .ok true =>
        match s.destroy with
        | .ok _ => .ok (upd w i none)
        | _ => .ub
      | .ok false => .ok (upd w i none)
      | _ => .ub
    | none => .ub

/-- The slot that represents an abstract optional. -/
def slotOf : Option V → Slot V
  | none => .null
  | some v => .live v

/-- The slots represent the optionals. -/
def ORelN (w : Nat → Option (Slot V)) (a : OAbs V) : Prop := ∀ i, w i = (a i).map slotOf

theorem orelN_upd {w : Nat → Option (Slot V)} {a : OAbs V} (h : ORelN w a) (i : Nat) (o : Option (Option V)) :
    ORelN (upd w i (o.map slotOf)) (upd a i o) := by
  intro k
  unfold upd
  split
  · rfl
  · exact h k

theorem slot_leave (left : V → V) (o : Option V) : (slotOf o).leave left = slotOf (o.map left) := by
  cases o <;> rfl

theorem orelN_leave {w : Nat → Option (Slot V)} {a : OAbs V} (h : ORelN w a) {j : Nat} {o : Option V}
    (hj : a j = some o) (left : V → V) : ORelN (upd w j (some ((slotOf o).leave left))) (leaveAbs a j left) := by
  unfold leaveAbs
  rw [hj, slot_leave]
  exact orelN_upd h j (some (o.map left))

/-- One operation of an optional with a spare representation does what the specification
says, if no constructor throws in place. -/
theorem ostepN_refines (w : Nat → Option (Slot V)) (a : OAbs V) (o : OOp V) (h : ORelN w a)
    (hp : opre a o ∧ noInPlaceThrow a o) :
    ∃ w', ostepN w o = Out.of (ospec a o).2 w' ∧ ORelN w' (ospec a o).1 := by
  obtain ⟨hp, hn⟩ := hp
  cases o with
  | createNone i =>
    simp only [ostepN, ospec, h i, show a i = none from hp, Option.map_none]
    exact ⟨_, rfl, orelN_upd h i (some none)⟩
  | createValue i c =>
    simp only [ostepN, ospec, h i, show a i = none from hp, Option.map_none]
    cases c.fails
    · exact ⟨_, rfl, orelN_upd h i (some (some c.val))⟩
    · exact ⟨_, rfl, h⟩
  | createFrom i j c left =>
    obtain ⟨h1, h2⟩ := hp
    obtain ⟨o, hj⟩ := Option.isSome_iff_exists.mp h2
    simp only [ostepN, ospec, h i, h j, h1, hj, Option.map_none, Option.map_some]
    cases o with
    | none => exact ⟨_, rfl, orelN_upd h i (some none)⟩
    | some v =>
      simp only [slotOf, Slot.isInit]
      cases (c v).fails
      · exact ⟨_, rfl, orelN_upd (orelN_leave h hj left) i (some (some (c v).val))⟩
      · exact ⟨_, rfl, h⟩
  | setNone i =>
    obtain ⟨o, hi⟩ := Option.isSome_iff_exists.mp hp
    simp only [ostepN, onObj, ospec, h i, hi, Option.map_some]
    cases o with
    | none => exact ⟨_, rfl, orelN_upd h i (some none)⟩
    | some v => exact ⟨_, rfl, orelN_upd h i (some none)⟩
  | emplace i c =>
    obtain ⟨o, hi⟩ := Option.isSome_iff_exists.mp hp
    have hn : c.fails = false := hn
    simp only [ostepN, onObj, ospec, h i, hi, Option.map_some, hn]
    cases o with
    | none =>
      simp only [slotOf, Slot.doInit, Slot.uninitialize, Slot.isInit, Slot.constructNull, Out.andThen_ok,
        Slot.construct, hn]
      exact ⟨_, rfl, orelN_upd h i (some (some c.val))⟩
    | some v =>
      simp only [slotOf, Slot.doInit, Slot.uninitialize, Slot.isInit, Slot.constructNull, Slot.destroy,
        Out.andThen_ok, Slot.construct, hn]
      exact ⟨_, rfl, orelN_upd h i (some (some c.val))⟩
  | assignValue i c asg =>
    obtain ⟨o, hi⟩ := Option.isSome_iff_exists.mp hp
    simp only [ostepN, onObj, ospec, h i, hi, Option.map_some]
    cases o with
    | none =>
      have hn : c.fails = false := hn hi
      simp only [slotOf, Slot.assignValue, Slot.doInit, Slot.uninitialize, Slot.isInit, Slot.constructNull,
        Out.andThen_ok, Slot.construct, hn]
      exact ⟨_, rfl, orelN_upd h i (some (some c.val))⟩
    | some v =>
      cases asg with
      | ok => exact ⟨_, rfl, orelN_upd h i (some (some c.val))⟩
      | exn l => exact ⟨_, rfl, orelN_upd h i (some (some l))⟩
  | assign i j c asg left =>
    obtain ⟨h1, h2⟩ := hp
    obtain ⟨oi, hi⟩ := Option.isSome_iff_exists.mp h1
    obtain ⟨oj, hj⟩ := Option.isSome_iff_exists.mp h2
    simp only [ostepN, ospec, h i, h j, hi, hj, Option.map_some]
    cases oj with
    | none =>
      have e : upd w j (some ((slotOf (none : Option V)).leave left)) = w :=
        upd_eq_self (by rw [h j, hj]; rfl)
      cases oi with
      | none =>
        by_cases hij : i = j
        · simp only [hij, if_true]; exact ⟨_, rfl, orelN_upd h j (some none)⟩
        · simp only [hij, if_false, e]; exact ⟨_, rfl, orelN_upd h i (some none)⟩
      | some v0 =>
        have hij : i ≠ j := by rintro rfl; rw [hi] at hj; simp at hj
        simp only [hij, if_false, e]
        exact ⟨_, rfl, orelN_upd h i (some none)⟩
    | some v =>
      cases oi with
      | none =>
        have hij : i ≠ j := by rintro rfl; rw [hi] at hj; simp at hj
        have hf : (c v).fails = false := hn v hi hj
        simp only [slotOf, Slot.assignFrom, Slot.isInit, Slot.construct, hf, Out.bind, hij, if_false, Bool.false_eq_true]
        exact ⟨_, rfl, orelN_upd (orelN_leave h hj left) i (some (some (c v).val))⟩
      | some v0 =>
        cases asg with
        | exn l => exact ⟨_, rfl, orelN_upd h i (some (some l))⟩
        | ok =>
          by_cases hij : i = j
          · simp only [hij, if_true]
            exact ⟨_, rfl, orelN_upd h j (some (some (left (c v).val)))⟩
          · simp only [hij, if_false]
            exact ⟨_, rfl, orelN_upd (orelN_leave h hj left) i (some (some (c v).val))⟩
  | destroy i =>
    obtain ⟨o, hi⟩ := Option.isSome_iff_exists.mp hp
    simp only [ostepN, ospec, h i, hi, Option.map_some]
    cases o with
    | none => exact ⟨_, rfl, orelN_upd h i none⟩
    | some v => exact ⟨_, rfl, orelN_upd h i none⟩

/-! ## Property theorems -/

/-- C21, element types without spare representations: any history of constructions,
copies, moves, assignments, emplacements, resets and destructions over any number of
optionals, with exceptions from any element constructor or assignment, never does
anything undefined, throws exactly when the specification says, and leaves exactly the
specified contents. -/
theorem C21_variant_history (os : List (OOp V)) (h : PreHist ospec opre (fun _ => none) os) :
    ∃ w, runHist ostepV (fun _ => none) os = some (w, (specHist ospec (fun _ => none) os).2) ∧
      ORelV w (specHist ospec (fun _ => none) os).1 :=
  runHist_refines ostepV_refines os _ _ (fun _ => rfl) h

/-- C21, element types with a spare representation. Missing from the full property:
histories in which a constructor throws while running inside an existing empty optional
(see `C21_nullable_throw_violated`). -/
theorem C21_nullable_history_partial (os : List (OOp V))
    (h : PreHist ospec (fun a o => opre a o ∧ noInPlaceThrow a o) (fun _ => none) os) :
    ∃ w, runHist ostepN (fun _ => none) os = some (w, (specHist ospec (fun _ => none) os).2) ∧
      ORelN w (specHist ospec (fun _ => none) os).1 :=
  runHist_refines ostepN_refines os _ _ (fun _ => rfl) h

/-- C21 fails for element types with a spare representation and a throwing constructor:
after `optional<T> x; try { x.emplace(throwing); } catch (...) {}` there is no object in the
storage, neither a value nor the tombstone, so the destructor's test whether there is a
value is undefined. -/
theorem C21_nullable_throw_violated :
    PreHist ospec opre (fun _ => none) [.createNone 0, .emplace 0 ⟨7, false, true⟩, .destroy 0] ∧
      runHist ostepN (fun _ => none) [.createNone 0, .emplace 0 ⟨7, false, true⟩, .destroy 0] = none := by
  constructor
  · simp [PreHist, opre, ospec, Ctor.fails, upd]
  · decide +kernel

/-- The observers of the two storages: `operator bool` and `operator*`
(optional.cpp 322-339, 44-64, 167-191). -/
def observeV (s : VStore V) : Res (Option V) :=
  if s.isInit then
    match s.active with
    | .ok (1, some v) => .ok (some v)
    | _ => .ub
  else .ok none

/-- See `observeV`. -/
def observeN (s : Slot V) : Res (Option V) :=
  match s.isInit with
  | .ok true =>
    match s with
    | .live v => .ok (some v)
    | _ => .ub
  | .ok false => .ok none
  | _ => .ub

/-- C21: testing and dereferencing show the abstract contents. -/
theorem C21_observers {a : OAbs V} {i : Nat} {o : Option V} (ha : a i = some o) :
    (∀ w, ORelV w a → ∃ s, w i = some s ∧ observeV s = .ok o) ∧
    (∀ w, ORelN w a → ∃ s, w i = some s ∧ observeN s = .ok o) := by
  refine ⟨fun w h => ?_, fun w h => ?_⟩
  · cases o with
    | none =>
      obtain ⟨_, hw⟩ := vrel_some h (i := i) (k := 0) (v := none) (by simp [toV, ha])
      exact ⟨_, hw, rfl⟩
    | some v =>
      obtain ⟨_, hw⟩ := vrel_some h (i := i) (k := 1) (v := some v) (by simp [toV, ha])
      exact ⟨_, hw, rfl⟩
  · refine ⟨slotOf o, by rw [h i, ha]; rfl, ?_⟩
    cases o <;> rfl

/-- optional.cpp 353-357: `operator==` of two optionals, in terms of the observers. -/
def optEq [BEq V] (x y : Option V) : Bool :=
  match x, y with
  | some a, some b => a == b
  | _, _ => x.isSome == y.isSome

/-- optional.cpp 358-360: `operator==(optional, T)`. -/
def optEqValue [BEq V] (x : Option V) (v : V) : Bool :=
  match x with
  | some a => a == v
  | none => false

/-- C21: equality is equality of contents. -/
theorem C21_equality [BEq V] [LawfulBEq V] (x y : Option V) (v : V) :
    (optEq x y = true ↔ x = y) ∧ (optEqValue x v = true ↔ x = some v) := by
  cases x <;> cases y <;> simp [optEq, optEqValue]

/-- A history with moves, resets and a throwing assignment. -/
example : PreHist ospec (fun a o => opre a o ∧ noInPlaceThrow a o) (fun _ => none)
    [.createNone 0, .emplace 0 ⟨5, false, false⟩, .createFrom 1 0 (fun v => ⟨v, true, false⟩) (fun _ => 0),
      .assignValue 0 ⟨9, false, true⟩ (.exn 3), .setNone 1, .assign 1 0 (fun v => ⟨v, true, false⟩) .ok id,
      .destroy 0] := by
  simp [PreHist, opre, noInPlaceThrow, ospec, Ctor.fails, upd, leaveAbs]

end Verif.Tv
