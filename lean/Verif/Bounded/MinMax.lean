import Verif.Bounded.ModProps

/-!
# `min`, `max`, `clamp`, `abs`, `round_up_divide`
-/

namespace Verif.Bounded

open Verif

/-- The comparison functions `min` and `max` use (`std::less()`, `std::greater()`). -/
inductive Cmp where
  | less
  | greater
  deriving Repr, DecidableEq

/-- `Compare{}(rhs, lhs)` on bounded integers: `operator<` / `operator>` rewritten
from `operator<=>` (source/bounded/comparison.cpp 17-30). -/
def Cmp.apply (W : Nat) (s : Cmp) (rhs lhs : BInt) : Res Bool := do
  let o ← compareB W rhs lhs
  return match s with
    | .less => o == .lt
    | .greater => o == .gt

/-- source/bounded/minmax.cpp 59-65 `select` on two compile-time bounds. -/
def Cmp.select (s : Cmp) (lhs rhs : Int) : Int :=
  match s with
  | .less => if rhs < lhs then rhs else lhs
  | .greater => if rhs > lhs then rhs else lhs

/-- source/bounded/minmax.cpp 56-86 `extreme_value` for bounded integers. The value
that is selected; what the result refers to is in `Bounded/MinMaxRef.lean`. -/
def extreme2 (W : Nat) (s : Cmp) (lhs rhs : BInt) : Option (Res BInt) := do
  let r ← mkInteger W (s.select lhs.rng.lo rhs.rng.lo) (s.select lhs.rng.hi rhs.rng.hi)
  if r = lhs.rng ∧ lhs.rng = rhs.rng then
    some (do return if ← s.apply W rhs lhs then rhs else lhs)
  else if !(rhs.rng.overlaps W r) then some (.ok lhs)
  else if !(lhs.rng.overlaps W r) then some (.ok rhs)
  else some (do
    if ← s.apply W rhs lhs then return r.unchecked W (← rhs.value)
    else return r.unchecked W (← lhs.value))

/-- source/bounded/minmax.cpp 98-120 `extreme_function`: fold from the left. -/
def extreme (W : Nat) (s : Cmp) (t : BInt) : List BInt → Option (Res BInt)
  | [] => some (.ok t)
  | t2 :: ts => do
    match ← extreme2 W s t t2 with
    | .ok r => extreme W s r ts
    | .ub => some .ub
    | .exn => some .exn

/-- source/bounded/clamp.cpp 17-25 `clamp`. -/
def clamp (W : Nat) (value minimum maximum : BInt) : Option (Res BInt) := do
  match ← extreme W .greater value [minimum] with
  | .ok m => extreme W .less m [maximum]
  | .ub => some .ub
  | .exn => some .exn

/-- source/bounded/cast.cpp 20-23 `increase_min<new_minimum>(value, unchecked)`. -/
def increaseMinUnchecked (W : Nat) (newMin : Int) (b : BInt) : Option (Res BInt) := do
  let r ← mkInteger W (safeMax W newMin b.rng.lo) b.rng.hi
  return do return r.unchecked W (← b.value)

/-- source/bounded/abs.cpp 21-32 `abs`. -/
def abs (W : Nat) (value : BInt) : Option (Res BInt) :=
  if value.rng.lo ≥ 0 then some (.ok value)
  else if value.rng.hi ≤ 0 then neg W value
  else do
    match ← neg W value with
    | .ok n =>
      match ← extreme W .greater value [n] with
      | .ok m => increaseMinUnchecked W 0 m
      | .ub => some .ub
      | .exn => some .exn
    | .ub => some .ub
    | .exn => some .exn

/-- source/bounded/arithmetic/round_up_divide.cpp 14-16 `round_up_divide`. -/
def roundUpDivide (W : Nat) (lhs rhs : BInt) : Option (Res BInt) := do
  match ← plus W lhs rhs with
  | .ok s =>
    match ← minus W s ⟨⟨1, 1⟩, 1⟩ with
    | .ok m => div W m rhs
    | .ub => some .ub
    | .exn => some .exn
  | .ub => some .ub
  | .exn => some .exn

/-- source/bounded/minmax.cpp 31-39, 98-120: the generic `extreme` over any type and
comparison function (`lhs` is kept unless `compare(rhs, lhs)`). -/
def extremeGeneric {α : Type} (compare : α → α → Bool) (t : α) : List α → α
  | [] => t
  | t2 :: ts => extremeGeneric compare (if compare t2 t then t2 else t) ts

/-! ## Facts -/

section
variable {W : Nat}

/-- The mathematical operation. -/
def Cmp.op (s : Cmp) (x y : Int) : Int :=
  match s with
  | .less => min x y
  | .greater => max x y

theorem select_eq (s : Cmp) (x y : Int) : s.select x y = s.op x y := by
  cases s <;> simp only [Cmp.select, Cmp.op] <;> split <;> omega

theorem overlaps_eq (hW : 64 ≤ W) {T r : Rng} (hT : T.Wf W) (hr : r.Wf W) :
    T.overlaps W r = decide (T.lo ≤ r.hi ∧ r.lo ≤ T.hi) := by
  unfold Rng.overlaps
  have a := hT.rep hW
  have b := hr.rep hW
  rw [safeCompare_norm hW a.1 b.2, safeCompare_norm hW b.1 a.2, isLE_compare, isLE_compare]
  simp

end
end Verif.Bounded
