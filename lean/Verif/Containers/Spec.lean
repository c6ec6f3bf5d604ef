import Verif.Containers.Generic

/-!
# What the operations of a contiguous container mean

The specification knows a container as its sequence of elements and its capacity, and nothing
about storage. Each operation says the new sequence, the new capacity, and whether it throws.
-/

namespace Verif.Containers

open Verif

variable {V : Type}

/-- The constants of a container type: capacity of a new object, largest capacity, whether a
new object allocates, whether the capacity can grow. -/
structure Cfg where
  mn : Nat
  mx : Nat
  mkA : Bool
  reservable : Bool
  deriving Repr, DecidableEq

/-- A container as the user sees it: elements and capacity. -/
abbrev SV (V : Type) := List V × Nat

/-- Insert `vs` before position `k`. When there is no room the capacity becomes the larger of
the new size and twice the old capacity. `nt`: no element of the source throws. -/
def specInsert (q : Cfg) (s : SV V) (k : Nat) (vs : List V) (nt : Bool) (al : Nat → Bool) : SV V × Bool :=
  if s.1.length + vs.length ≤ s.2 then
    if nt then ((s.1.take k ++ vs ++ s.1.drop k, s.2), false) else (s, true)
  else if !q.reservable || (q.mkA && al 0) || decide (q.mx < max (s.1.length + vs.length) (2 * s.2)) || al 1 || !nt
  then (s, true)
  else ((s.1.take k ++ vs ++ s.1.drop k, max (s.1.length + vs.length) (2 * s.2)), false)

/-- Add one element at the end. -/
def specPush (q : Cfg) (s : SV V) (v : V) (throws : Bool) (al : Nat → Bool) : SV V × Bool :=
  if q.mx = 0 then (s, true)
  else if s.1.length < s.2 then
    if throws then (s, true) else ((s.1 ++ [v], s.2), false)
  else if !q.reservable || (q.mkA && al 0) || al 1 || throws then (s, true)
  else ((s.1 ++ [v], max 1 (2 * s.2)), false)

/-- Add elements one at a time; stop at the first exception. -/
def specPushes (q : Cfg) : SV V → List (Item V) → (Nat → Bool) → SV V × Bool
  | s, [], _ => (s, false)
  | s, it :: its, al =>
    let r := specPush q s it.val it.throws al
    if r.2 then r else specPushes q r.1 its (fun k => al (k + 2))

/-- Every operation on the sequence and capacity. -/
def GOp.spec (q : Cfg) (s : SV V) : GOp V → SV V × Bool
  | .push (.lit v t) al => specPush q s v t al
  | .push (.self k t) al =>
    match s.1[k]? with
    | some v => specPush q s v t al
    | none => (s, false)
  | .pop => ((s.1.dropLast, s.2), false)
  | .append src al => specInsert q s s.1.length (src.map (·.val)) (!src.any (·.throws)) al
  | .appendUnsized src al =>
    if q.reservable then specPushes q s src al
    else specInsert q s s.1.length (src.map (·.val)) (!src.any (·.throws)) al
  | .insert k src al => specInsert q s k (src.map (·.val)) (!src.any (·.throws)) al
  | .erase a b => ((s.1.take a ++ s.1.drop b, s.2), false)
  | .eraseToEnd k => ((s.1.take k, s.2), false)
  | .eraseIf p _ => ((s.1.filter (fun v => !p v), s.2), false)
  | .clear => (([], s.2), false)
  | .resize n gen al =>
    if n ≤ s.1.length then ((s.1.take n, s.2), false)
    else
      let src := (List.range (n - s.1.length)).map gen
      specInsert q s s.1.length (src.map (·.val)) (!src.any (·.throws)) al
  | .reserve n f => if n ≤ s.2 then (s, false) else if f then (s, true) else ((s.1, n), false)
  | .shrink al =>
    if s.1.length = s.2 ∨ (0 < q.mn ∧ s.2 = q.mn) then (s, false)
    else if (q.mkA && al 0) || (decide (q.mn < s.1.length) && al 1) then (s, true)
    else ((s.1, max q.mn s.1.length), false)
  | .assignTrivial src _ =>
    if !q.reservable && decide (s.2 < src.length) then (([], s.2), true)
    else if src.any (·.throws) then (([], max s.2 src.length), true)
    else ((src.map (·.val), max s.2 src.length), false)
  | .assign src left al =>
    match (src.take s.1.length).findIdx? (·.throws) with
    | some j => (((src.map (·.val)).take j ++ left :: s.1.drop (j + 1), s.2), true)
    | none =>
      let done := (src.map (·.val)).take s.1.length
      let rest := src.drop s.1.length
      specInsert q (done, s.2) done.length (rest.map (·.val)) (!rest.any (·.throws)) al

/-- What the code requires of the caller, besides the documented preconditions (positions
within the container, `pop_back` on a non-empty container):

* `push_back` on a full container: the doubled capacity does not exceed the maximum (C26);
* `insert`: the source is not empty, unless the position is the end (C25);
* `append` to a container that cannot grow: the elements fit, or are more than the whole
  capacity (C28);
* `assign` of trivially copyable elements: not more than the maximum, and the allocation it may
  need succeeds (C27). -/
def pushPre (q : Cfg) (s : SV V) : Prop :=
  q.mx ≠ 0 → s.1.length = s.2 → q.reservable = true → max 1 (2 * s.2) ≤ q.mx

/-- `pushPre` for every element that is reached. -/
def pushesPre (q : Cfg) : SV V → List (Item V) → (Nat → Bool) → Prop
  | _, [], _ => True
  | s, it :: its, al =>
    pushPre q s ∧
      ((specPush q s it.val it.throws al).2 = false →
        pushesPre q (specPush q s it.val it.throws al).1 its (fun k => al (k + 2)))

/-- Room for `n` more elements in a container that cannot grow, or an exception. -/
def appendPre (q : Cfg) (s : SV V) (n : Nat) : Prop :=
  q.reservable = false → s.1.length + n ≤ s.2 ∨ s.2 < n

@[inherit_doc pushPre]
def GOp.pre (q : Cfg) (s : SV V) : GOp V → Prop
  | .push (.lit _ _) _ => pushPre q s
  | .push (.self k _) _ => pushPre q s ∧ k < s.1.length
  | .pop => s.1 ≠ []
  | .append src _ => appendPre q s src.length
  | .appendUnsized src al =>
    if q.reservable then pushesPre q s src al else s.1.length + src.length ≤ s.2 ∨ s.1 = []
  | .insert k src _ => k ≤ s.1.length ∧ (src = [] → k = s.1.length)
  | .erase a b => a ≤ b ∧ b ≤ s.1.length
  | .eraseToEnd k => k ≤ s.1.length
  | .eraseIf _ _ => True
  | .clear => True
  | .resize n _ _ => appendPre q s (n - s.1.length)
  | .reserve n _ => n ≤ q.mx ∧ q.reservable = true
  | .shrink _ => q.reservable = true
  | .assignTrivial src al => q.reservable = true → src.length ≤ q.mx ∧ (s.2 < src.length → al 0 = false)
  | .assign src _ _ => appendPre q (s.1.take src.length, s.2) (src.length - s.1.length)

/-! Deciding the preconditions, for the examples. -/

instance (q : Cfg) (s : SV V) : Decidable (pushPre q s) := by unfold pushPre; infer_instance

instance decPushes (q : Cfg) : ∀ (src : List (Item V)) (s : SV V) (al : Nat → Bool), Decidable (pushesPre q s src al)
  | [], _, _ => isTrue trivial
  | it :: its, s, al => by
    have := decPushes q its (specPush q s it.val it.throws al).1 (fun k => al (k + 2))
    unfold pushesPre; infer_instance

instance (q : Cfg) (s : SV V) (n : Nat) : Decidable (appendPre q s n) := by unfold appendPre; infer_instance

instance decNil {A : Type} (x : List A) : Decidable (x = []) :=
  match x with
  | [] => isTrue rfl
  | _ :: _ => isFalse (by simp)

instance (q : Cfg) (s : SV V) (op : GOp V) : Decidable (op.pre q s) := by
  unfold GOp.pre; split <;> infer_instance

end Verif.Containers
