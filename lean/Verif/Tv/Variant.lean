import Verif.Base.Hist

/-!
# `tv::variant` over any history (property C22)

A variant object is its stored index and its union storage. The alternatives' types are
not distinguished: a value of any alternative is an element of `V`, tagged with the
position of the alternative. The union holds at most one object; reading or destroying a
member that is not alive, and constructing over a live member (a leak), is `ub`.
-/

namespace Verif.Tv

open Verif

variable {V : Type}

/-- source/tv/variant.cpp 266-267: `m_index` and `m_data`. -/
structure Var (V : Type) where
  idx : Nat
  data : Option (Nat × V)
  deriving Repr, DecidableEq

/-- A constructor call: its value, whether it is `noexcept`, and whether this call throws
(a `noexcept` constructor does not). -/
structure Ctor (V : Type) where
  val : V
  nothrow : Bool
  throws : Bool
  deriving Repr, DecidableEq

/-- The call throws. -/
def Ctor.fails (c : Ctor V) : Bool := !c.nothrow && c.throws

/-- An assignment to an existing object of element type: success with the new value, or
an exception that leaves some value. -/
inductive Asg (V : Type) where
  | ok
  | exn (left : V)
  deriving Repr, DecidableEq

namespace Var

/-- source/tv/visit.cpp 166-189 as used by the variant: the active alternative. Undefined
when the union does not hold the alternative named by the index (C23 treats `visit`
itself). -/
def active (s : Var V) : Res (Nat × V) :=
  match s.data with
  | some (k, v) => if k = s.idx then .ok (k, v) else .ub
  | none => .ub

/-- source/tv/variant.cpp 181, 197: `visit(*this, bounded::destroy)`. -/
def destroyActive (s : Var V) : Out (Var V) :=
  match s.active with
  | .ok _ => .ok { s with data := none }
  | _ => .ub

/-- source/tv/variant.cpp 231-237 `replace_active_member`: only called with functions that
do not throw. Constructing over a live member is an error. -/
def replaceActive (s : Var V) (k : Nat) (v : V) : Out (Var V) :=
  match s.data with
  | none => .ok ⟨k, some (k, v)⟩
  | some _ => .ub

/-- source/tv/variant.cpp 216-229 `emplace_impl`. The temporary of lines 225-227 is
destroyed by `relocate`. -/
def emplace (s : Var V) (k : Nat) (c : Ctor V) : Out (Var V) :=
  if c.nothrow then s.destroyActive.andThen fun t => t.replaceActive k c.val
  else if c.throws then .exn s
  else s.destroyActive.andThen fun t => t.replaceActive k c.val

/-- `lhs.value() = rhs`: assignment to the live member `k`. -/
def assignMember (s : Var V) (v : V) (a : Asg V) : Out (Var V) :=
  match s.active with
  | .ok (k, _) =>
    match a with
    | .ok => .ok { s with data := some (k, v) }
    | .exn left => .exn { s with data := some (k, left) }
  | _ => .ub

/-- source/tv/variant.cpp 251-264 `assign(other)`: `other` has the index `k` and the value
`c.val`; `c` describes its copy or move constructor, `a` its assignment operator. -/
def assignFrom (s : Var V) (k : Nat) (c : Ctor V) (a : Asg V) : Out (Var V) :=
  match s.active with
  | .ok (i, _) =>
    if i = k then s.assignMember c.val a
    else (s.emplace k c).andThen fun t => .ok { t with idx := k }
  | _ => .ub

/-- source/tv/variant.cpp 159-177 `operator=(T && value)`; `k` is the alternative of type
`T`. -/
def assignValue (s : Var V) (k : Nat) (c : Ctor V) (a : Asg V) : Out (Var V) :=
  match s.active with
  | .ok (i, _) => if i = k then s.assignMember c.val a else s.emplace k c
  | _ => .ub

end Var

/-- Operations on a family of variants with `n` alternatives, numbered by `Nat`. `moved`
operations carry the value left in the moved-from object. -/
inductive VOp (V : Type) where
  /-- `variant(index, value)` (lines 80-116). -/
  | create (i k : Nat) (c : Ctor V)
  /-- Copy or move construction (118-136, 239-249); `left` is what the source holds
  afterwards. -/
  | createFrom (i j : Nat) (c : V → Ctor V) (left : V → V)
  /-- `x.emplace(index, construct)` (195-201). -/
  | emplace (i k : Nat) (c : Ctor V)
  /-- `x = y` (138-157). -/
  | assign (i j : Nat) (c : V → Ctor V) (a : Asg V) (left : V → V)
  /-- `x = value` (159-177). -/
  | assignValue (i k : Nat) (c : Ctor V) (a : Asg V)
  /-- Destructor (179-182). -/
  | destroy (i : Nat)

/-- What the source of a copy or move holds afterwards. -/
def leaveIn (w : Nat → Option (Var V)) (j : Nat) (left : V → V) : Nat → Option (Var V) :=
  match w j with
  | some s => upd w j (some { s with data := s.data.map fun p => (p.1, left p.2) })
  | none => w

/-- One operation on a family of variants (`none`: there is no object with this number).
A throwing constructor leaves no object (and, simplifying, an unchanged source). An
operation that names an object that does not exist, or constructs one that exists, is
`ub`. For `x = x` the two visited members are the same object; its assignment operator is
called with itself, and what is left is determined by `a` and `left` as for two objects. -/
def vstep (w : Nat → Option (Var V)) : VOp V → Out (Nat → Option (Var V))
  | .create i k c =>
    match w i with
    | some _ => .ub
    | none => if c.fails then .exn w else .ok (upd w i (some ⟨k, some (k, c.val)⟩))
  | .createFrom i j c left =>
    match w i, w j with
    | none, some s =>
      match s.active with
      | .ok (k, v) =>
        if (c v).fails then .exn w
        else
          match (Var.mk s.idx none).replaceActive k (c v).val with
          | .ok t => .ok (upd (leaveIn w j left) i (some t))
          | _ => .ub
      | _ => .ub
    | _, _ => .ub
  | .emplace i k c =>
    match w i with
    | some s => (s.emplace k c).bind (fun t => .ok (upd w i (some t))) (fun t => upd w i (some t))
    | none => .ub
  | .assign i j c a left =>
    match w i, w j with
    | some s, some t =>
      match t.active with
      | .ok (k, v) =>
        (s.assignFrom k (c v) a).bind
          (fun s' => .ok (if i = j then upd w i (some { s' with data := s'.data.map fun p => (p.1, left p.2) })
            else upd (leaveIn w j left) i (some s')))
          (fun s' => upd w i (some s'))
      | _ => .ub
    | _, _ => .ub
  | .assignValue i k c a =>
    match w i with
    | some s => (s.assignValue k c a).bind (fun t => .ok (upd w i (some t))) (fun t => upd w i (some t))
    | none => .ub
  | .destroy i =>
    match w i with
    | some s =>
      match s.destroyActive with
      | .ok t => if t.data.isNone then .ok (upd w i none) else .ub
      | _ => .ub
    | none => .ub

/-! ## Specification -/

/-- The abstract state: every object is a pair of an index and a value. -/
abbrev VAbs (V : Type) := Nat → Option (Nat × V)

/-- What an operation does to the abstract state and whether it throws. Emplacement,
construction and assignment of a different alternative have the strong guarantee;
assignment to the same alternative has the guarantee of the alternative's assignment. -/
def vspec (w : VAbs V) : VOp V → VAbs V × Bool
  | .create i k c => if c.fails then (w, true) else (upd w i (some (k, c.val)), false)
  | .createFrom i j c left =>
    match w j with
    | some (k, v) =>
      if (c v).fails then (w, true) else (upd (upd w j (some (k, left v))) i (some (k, (c v).val)), false)
    | none => (w, false)
  | .emplace i k c => if c.fails then (w, true) else (upd w i (some (k, c.val)), false)
  | .assign i j c a left =>
    match w i, w j with
    | some (k, _), some (k', v') =>
      if k = k' then
        match a with
        | .exn l => (upd w i (some (k, l)), true)
        | .ok =>
          if i = j then (upd w i (some (k', left (c v').val)), false)
          else (upd (upd w j (some (k', left v'))) i (some (k', (c v').val)), false)
      else if (c v').fails then (w, true)
      else (upd (upd w j (some (k', left v'))) i (some (k', (c v').val)), false)
    | _, _ => (w, false)
  | .assignValue i k c a =>
    match w i with
    | some (k', _) =>
      if k' = k then
        match a with
        | .exn l => (upd w i (some (k, l)), true)
        | .ok => (upd w i (some (k, c.val)), false)
      else if c.fails then (w, true) else (upd w i (some (k, c.val)), false)
    | none => (w, false)
  | .destroy i => (upd w i none, false)

/-- The operation is one a program can perform: it names existing objects, constructs
only new ones, and the index is one of the `n` alternatives. -/
def vpre (n : Nat) (w : VAbs V) : VOp V → Prop
  | .create i k _ => w i = none ∧ k < n
  | .createFrom i j _ _ => w i = none ∧ (w j).isSome
  | .emplace i k _ => (w i).isSome ∧ k < n
  | .assign i j _ _ _ => (w i).isSome ∧ (w j).isSome
  | .assignValue i k _ _ => (w i).isSome ∧ k < n
  | .destroy i => (w i).isSome

/-- The concrete object represents the abstract one: exactly the alternative named by
the index is alive, the index is valid. -/
def VRel (n : Nat) (w : Nat → Option (Var V)) (a : VAbs V) : Prop :=
  ∀ i, match a i with
    | some (k, v) => k < n ∧ w i = some ⟨k, some (k, v)⟩
    | none => w i = none

theorem vrel_some {n : Nat} {w : Nat → Option (Var V)} {a : VAbs V} (h : VRel n w a) {i k : Nat} {v : V}
    (ha : a i = some (k, v)) : k < n ∧ w i = some ⟨k, some (k, v)⟩ := by
  have := h i; rw [ha] at this; exact this

theorem vrel_none {n : Nat} {w : Nat → Option (Var V)} {a : VAbs V} (h : VRel n w a) {i : Nat}
    (ha : a i = none) : w i = none := by
  have := h i; rw [ha] at this; exact this

theorem vrel_upd {n : Nat} {w : Nat → Option (Var V)} {a : VAbs V} (h : VRel n w a) (i k : Nat) (v : V)
    (hk : k < n) : VRel n (upd w i (some ⟨k, some (k, v)⟩)) (upd a i (some (k, v))) := by
  intro m
  by_cases hm : m = i
  · subst hm; simp [hk]
  · rw [upd_other _ _ hm, upd_other _ _ hm]; exact h m

theorem vrel_upd_none {n : Nat} {w : Nat → Option (Var V)} {a : VAbs V} (h : VRel n w a) (i : Nat) :
    VRel n (upd w i none) (upd a i none) := by
  intro m
  by_cases hm : m = i
  · subst hm; simp
  · rw [upd_other _ _ hm, upd_other _ _ hm]; exact h m

theorem leaveIn_rel {n : Nat} {w : Nat → Option (Var V)} {a : VAbs V} (h : VRel n w a) {j k : Nat} {v : V}
    (ha : a j = some (k, v)) (left : V → V) : VRel n (leaveIn w j left) (upd a j (some (k, left v))) := by
  obtain ⟨h1, h2⟩ := vrel_some h ha
  unfold leaveIn
  rw [h2]
  exact vrel_upd h j k (left v) h1

@[simp] theorem active_mk (k : Nat) (v : V) : (Var.mk k (some (k, v))).active = .ok (k, v) := by
  simp [Var.active]

theorem emplace_mk (i : Nat) (v : V) (k : Nat) (c : Ctor V) :
    (Var.mk i (some (i, v))).emplace k c =
      if c.fails then .exn ⟨i, some (i, v)⟩ else .ok ⟨k, some (k, c.val)⟩ := by
  unfold Var.emplace Var.destroyActive Ctor.fails
  cases c.nothrow <;> cases c.throws <;> simp [Var.replaceActive]

/-- One operation of a variant does what the specification says. -/
theorem vstep_refines (n : Nat) (w : Nat → Option (Var V)) (a : VAbs V) (o : VOp V) (h : VRel n w a)
    (hp : vpre n a o) : ∃ w', vstep w o = Out.of (vspec a o).2 w' ∧ VRel n w' (vspec a o).1 := by
  cases o with
  | create i k c =>
    obtain ⟨h1, h2⟩ := hp
    simp only [vstep, vspec, vrel_none h h1]
    cases hc : c.fails
    · exact ⟨_, rfl, vrel_upd h i k c.val h2⟩
    · exact ⟨_, rfl, h⟩
  | createFrom i j c left =>
    obtain ⟨h1, h2⟩ := hp
    obtain ⟨⟨k, v⟩, hj⟩ := Option.isSome_iff_exists.mp h2
    obtain ⟨hk, hw⟩ := vrel_some h hj
    simp only [vstep, vspec, vrel_none h h1, hw, hj, active_mk]
    cases hc : (c v).fails
    · exact ⟨_, rfl, vrel_upd (leaveIn_rel h hj left) i k _ hk⟩
    · exact ⟨_, rfl, h⟩
  | emplace i k c =>
    obtain ⟨h1, h2⟩ := hp
    obtain ⟨⟨k', v⟩, hi⟩ := Option.isSome_iff_exists.mp h1
    obtain ⟨hk, hw⟩ := vrel_some h hi
    simp only [vstep, vspec, hw, emplace_mk]
    cases hc : c.fails
    · exact ⟨_, rfl, vrel_upd h i k _ h2⟩
    · refine ⟨_, rfl, ?_⟩
      have := vrel_upd h i k' v hk
      rwa [show upd a i (some (k', v)) = a from funext fun m => by
        by_cases hm : m = i
        · subst hm; simp [hi]
        · rw [upd_other _ _ hm]] at this
  | assign i j c asg left =>
    obtain ⟨h1, h2⟩ := hp
    obtain ⟨⟨k, v⟩, hi⟩ := Option.isSome_iff_exists.mp h1
    obtain ⟨⟨k', v'⟩, hj⟩ := Option.isSome_iff_exists.mp h2
    obtain ⟨hk, hwi⟩ := vrel_some h hi
    obtain ⟨hk', hwj⟩ := vrel_some h hj
    simp only [vstep, vspec, hwi, hwj, hi, hj, active_mk, Var.assignFrom]
    by_cases hkk : k = k'
    · subst hkk
      simp only [if_true, Var.assignMember, active_mk]
      cases asg with
      | exn l => exact ⟨_, rfl, vrel_upd h i k l hk⟩
      | ok =>
        by_cases hij : i = j
        · simp only [hij, if_true, Out.bind, Option.map_some]
          exact ⟨_, rfl, vrel_upd h j k _ hk⟩
        · simp only [hij, if_false, Out.bind]
          exact ⟨_, rfl, vrel_upd (leaveIn_rel h hj left) i k _ hk⟩
    · simp only [hkk, if_false, emplace_mk]
      have hij : i ≠ j := by
        rintro rfl; rw [hi] at hj; simp at hj; exact hkk hj.1
      cases hc : (c v').fails
      · simp only [hij, if_false, Out.bind, Out.andThen_ok, Bool.false_eq_true]
        exact ⟨_, rfl, vrel_upd (leaveIn_rel h hj left) i k' _ hk'⟩
      · refine ⟨_, rfl, ?_⟩
        have := vrel_upd h i k v hk
        rwa [show upd a i (some (k, v)) = a from funext fun m => by
          by_cases hm : m = i
          · subst hm; simp [hi]
          · rw [upd_other _ _ hm]] at this
  | assignValue i k c asg =>
    obtain ⟨h1, h2⟩ := hp
    obtain ⟨⟨k', v⟩, hi⟩ := Option.isSome_iff_exists.mp h1
    obtain ⟨hk, hw⟩ := vrel_some h hi
    simp only [vstep, vspec, hw, hi, Var.assignValue, active_mk]
    by_cases hkk : k' = k
    · subst hkk
      simp only [if_true, Var.assignMember, active_mk]
      cases asg with
      | exn l => exact ⟨_, rfl, vrel_upd h i k' l hk⟩
      | ok => exact ⟨_, rfl, vrel_upd h i k' _ hk⟩
    · simp only [hkk, if_false, emplace_mk]
      cases hc : c.fails
      · exact ⟨_, rfl, vrel_upd h i k _ h2⟩
      · refine ⟨_, rfl, ?_⟩
        have := vrel_upd h i k' v hk
        rwa [show upd a i (some (k', v)) = a from funext fun m => by
          by_cases hm : m = i
          · subst hm; simp [hi]
          · rw [upd_other _ _ hm]] at this
  | destroy i =>
    obtain ⟨⟨k', v⟩, hi⟩ := Option.isSome_iff_exists.mp hp
    obtain ⟨hk, hw⟩ := vrel_some h hi
    simp only [vstep, vspec, hw, Var.destroyActive, active_mk, Option.isNone_none, if_true]
    exact ⟨_, rfl, vrel_upd_none h i⟩

/-- C22: through any history of constructions, copies, moves, assignments, emplacements
and destructions of any number of variants, with exceptions thrown by any constructor or
assignment of an alternative, nothing undefined happens, the operations throw exactly
when the specification says, and every variant holds exactly one live alternative, the
one the specification predicts. -/
theorem C22_variant_history (n : Nat) (os : List (VOp V)) (h : PreHist vspec (vpre n) (fun _ => none) os) :
    ∃ w, runHist vstep (fun _ => none) os = some (w, (specHist vspec (fun _ => none) os).2) ∧
      VRel n w (specHist vspec (fun _ => none) os).1 :=
  runHist_refines (vstep_refines n) os _ _ (fun _ => rfl) h

/-- Equality of variants (source/tv/variant.cpp 43-52, 203-207). -/
def variantEq [BEq V] (s t : Var V) : Res Bool := do
  let a ← s.active
  let b ← t.active
  return if a.1 = b.1 then a.2 == b.2 else false

/-- C22: two variants compare equal exactly if they hold the same alternative with equal
values. -/
theorem C22_equality {n : Nat} [BEq V] [LawfulBEq V] {w : Nat → Option (Var V)} {a : VAbs V} (h : VRel n w a)
    {i j : Nat} {x y : Nat × V} (hi : a i = some x) (hj : a j = some y) :
    ∃ s t, w i = some s ∧ w j = some t ∧ ∃ b, variantEq s t = .ok b ∧ (b = true ↔ x = y) := by
  obtain ⟨_, h1⟩ := vrel_some h (k := x.1) (v := x.2) hi
  obtain ⟨_, h2⟩ := vrel_some h (k := y.1) (v := y.2) hj
  refine ⟨_, _, h1, h2, if x.1 = y.1 then x.2 == y.2 else false, ?_, ?_⟩
  · unfold variantEq; simp only [active_mk]; rfl
  · obtain ⟨x1, x2⟩ := x
    obtain ⟨y1, y2⟩ := y
    by_cases hx : x1 = y1 <;> simp [hx]

/-- A history with a throwing emplacement, a change of alternative and a move. -/
example : PreHist vspec (vpre 2) (fun _ => none)
    [.create 0 0 ⟨5, false, false⟩, .emplace 0 1 ⟨7, false, true⟩, .createFrom 1 0 (fun v => ⟨v, true, false⟩) (fun _ => 0),
      .assignValue 0 1 ⟨9, false, false⟩ .ok, .assign 1 0 (fun v => ⟨v, true, false⟩) .ok id, .destroy 0] := by
  simp [PreHist, vpre, vspec, Ctor.fails, upd]

end Verif.Tv
