import Verif.Bounded.Div

/-!
# Properties C01 (addition), C02 (multiplication), C03 (negation, subtraction),
C04 (division)

Specification side: `Yields out r v` says that an operation compiled, ran without
undefined behaviour, its static type is `integer<r.lo, r.hi>`, reading the result
gives the mathematical value `v` and `v` lies between the declared bounds. `Holds`
says that an object of a compiling type currently holds a value.
-/

namespace Verif.Bounded

open Verif

variable {W : Nat}

/-- Outcome specification: defined, of declared type `r`, with value `v`, in range. -/
def Yields (out : Option (Res BInt)) (r : Rng) (v : Int) : Prop :=
  ∃ c, out = some (.ok c) ∧ c.rng = r ∧ c.value = .ok v ∧ r.lo ≤ v ∧ v ≤ r.hi

/-- `a` is an object of an accepted type which holds the value `x`. -/
def Holds (W : Nat) (a : BInt) (x : Int) : Prop := a.rng.Wf W ∧ a.value = .ok x

/-- Every in-range value is held by some object, so `Holds` is not vacuous. -/
theorem holds_of_mem (hW : 64 ≤ W) {r : Rng} (h : r.Wf W) {x : Int} (hx : r.Mem x) :
    Holds W (r.unchecked W x) x ∧ (r.unchecked W x).rng = r :=
  ⟨⟨h, unchecked_value hW h hx rfl⟩, rfl⟩

theorem yields_of {out : Option (Res BInt)} {r : Rng} {v : Int} (hW : 64 ≤ W)
    (h : ∃ c, out = some (.ok c) ∧ c.rng = r ∧ c.value = .ok v) (hwf : r.Wf W) :
    Yields out r v := by
  obtain ⟨c, h1, h2, h3⟩ := h
  have := value_mem h3 (by rw [h2]; exact ((wf_iff hW _).mp hwf).1)
  rw [h2] at this
  exact ⟨c, h1, h2, h3, this⟩

theorem isSome_iff_of_ty {α : Type} {o : Option Rng} {f : Rng → Option α}
    (hf : ∀ r, (f r).isSome) : (o.bind f).isSome = o.isSome := by
  cases o with
  | none => rfl
  | some r => simp [hf r]

/-! ## C01 -/

/-- C01: whenever `a + b` compiles it evaluates to the mathematical sum, with
declared bounds exactly `min + min` and `max + max`. -/
theorem C01_add_exact (hW : 64 ≤ W) {a b : BInt} {x y : Int} (ha : Holds W a x) (hb : Holds W b y)
    (hc : plus W a b ≠ none) :
    Yields (plus W a b) ⟨a.rng.lo + b.rng.lo, a.rng.hi + b.rng.hi⟩ (x + y) := by
  cases hr : plusTy W a.rng b.rng with
  | none => exact absurd (by unfold plus; rw [hr]; rfl) hc
  | some r =>
    obtain ⟨c, h1, h2, h3, h4, h5⟩ := plus_value hW ha.1 hb.1 hr ha.2 hb.2
    rw [← h4]
    exact yields_of hW ⟨c, h1, h2, h3⟩ h5

/-- C01: `a + b` is rejected at compile time exactly when no pair of built-in types
holds the exact bounds. -/
theorem C01_add_rejected_iff (hW : 64 ≤ W) {a b : BInt} (ha : a.rng.Wf W) (hb : b.rng.Wf W) :
    plus W a b = none ↔ ¬ ((0 ≤ a.rng.lo + b.rng.lo ∧ a.rng.hi + b.rng.hi < 2 ^ W) ∨
      (-(2 ^ (W - 1)) ≤ a.rng.lo + b.rng.lo ∧ a.rng.hi + b.rng.hi < 2 ^ (W - 1))) := by
  have h : plus W a b = none ↔ plusTy W a.rng b.rng = none := by
    unfold plus
    cases plusTy W a.rng b.rng <;> simp
  rw [h, plusTy_eq hW ha hb, mkInteger_eq hW]
  have h1 := ((wf_iff hW _).mp ha).1
  have h2 := ((wf_iff hW _).mp hb).1
  have : a.rng.lo + b.rng.lo ≤ a.rng.hi + b.rng.hi := by omega
  simp [this, Storable]

example : plus 128 ⟨⟨-5, 10⟩, -5⟩ ⟨⟨0, 255⟩, 255⟩ = some (.ok ⟨⟨-5, 265⟩, 250⟩) := by decide +kernel
example : Holds 128 ⟨⟨-5, 10⟩, -5⟩ (-5) ∧ Holds 128 ⟨⟨0, 255⟩, 255⟩ 255 := by
  unfold Holds; decide +kernel
example : plus 64 ⟨⟨0, 2 ^ 64 - 1⟩, 3⟩ ⟨⟨0, 1⟩, 1⟩ = none := by decide +kernel

/-! ## C02 -/

/-- C02 is false as stated: `constant<INTMAX> * constant<-2>` is accepted and is
`constant<2>` (the test at multiplies.cpp 38-43 only checks that the magnitude does
not exceed the unsigned maximum). -/
theorem C02_mul_exact_violated :
    ∃ (a b : BInt) (x y : Int) (c : BInt) (z : Int), Holds 128 a x ∧ Holds 128 b y ∧
      mul 128 a b = some (.ok c) ∧ c.value = .ok z ∧ z ≠ x * y := by
  refine ⟨⟨⟨2 ^ 127 - 1, 2 ^ 127 - 1⟩, 0⟩, ⟨⟨-2, -2⟩, 0⟩, 2 ^ 127 - 1, -2, ⟨⟨2, 2⟩, 2⟩, 2, ?_⟩
  unfold Holds
  decide +kernel

/-- The same defect with two declared types that are not constants: the product of
`integer<2^127-2, 2^127-1>` and `constant<-2>` has declared bounds which exclude the
true product. -/
example : mulTy 128 ⟨2 ^ 127 - 2, 2 ^ 127 - 1⟩ ⟨-2, -2⟩ = some ⟨2, 4⟩ := by decide +kernel

/-- C02, under the condition that the exact lower bound of the products fits the
widest signed type: whenever `a * b` compiles it evaluates to the mathematical
product inside a declared range whose bounds are the least and greatest corner
product. Missing for the full property: accepted products whose exact lower bound
is below `-2^(W-1)`, where it is false (`C02_mul_exact_violated`). -/
theorem C02_mul_exact_partial (hW : 64 ≤ W) {a b : BInt} {x y : Int} (ha : Holds W a x)
    (hb : Holds W b y) (hc : mul W a b ≠ none)
    (hlo : ∀ p ∈ [a.rng.lo * b.rng.lo, a.rng.lo * b.rng.hi, a.rng.hi * b.rng.lo, a.rng.hi * b.rng.hi],
      -(2 ^ (W - 1)) ≤ p) :
    ∃ r, Yields (mul W a b) r (x * y) ∧
      (∃ u v, a.rng.Mem u ∧ b.rng.Mem v ∧ r.lo = u * v) ∧
      (∃ u v, a.rng.Mem u ∧ b.rng.Mem v ∧ r.hi = u * v) := by
  simp at hlo
  have hl : -(2 ^ (W - 1)) ≤ (mulRange a.rng b.rng).lo := by
    unfold mulRange; simp only; omega
  have h1 := ((wf_iff hW _).mp ha.1).1
  have h2 := ((wf_iff hW _).mp hb.1).1
  have hr : mulTy W a.rng b.rng = some (mulRange a.rng b.rng) := by
    cases hr : mulTy W a.rng b.rng with
    | none => exact absurd (by unfold mul; rw [hr]; rfl) hc
    | some r => rw [(mul_value hW ha.1 hb.1 hl hr ha.2 hb.2).choose_spec.2.2.2.1]
  obtain ⟨c, e1, e2, e3, e4, e5⟩ := mul_value hW ha.1 hb.1 hl hr ha.2 hb.2
  refine ⟨_, yields_of hW ⟨c, e1, e2, e3⟩ e5, ?_, ?_⟩
  · unfold mulRange Rng.Mem
    simp only
    rcases min_choice (min (min (a.rng.lo * b.rng.lo) (a.rng.lo * b.rng.hi)) (a.rng.hi * b.rng.lo))
      (a.rng.hi * b.rng.hi) with e | e
    · rcases min_choice (min (a.rng.lo * b.rng.lo) (a.rng.lo * b.rng.hi)) (a.rng.hi * b.rng.lo) with f | f
      · rcases min_choice (a.rng.lo * b.rng.lo) (a.rng.lo * b.rng.hi) with g | g
        · exact ⟨a.rng.lo, b.rng.lo, by omega, by omega, by rw [e, f, g]⟩
        · exact ⟨a.rng.lo, b.rng.hi, by omega, by omega, by rw [e, f, g]⟩
      · exact ⟨a.rng.hi, b.rng.lo, by omega, by omega, by rw [e, f]⟩
    · exact ⟨a.rng.hi, b.rng.hi, by omega, by omega, by rw [e]⟩
  · unfold mulRange Rng.Mem
    simp only
    rcases max_choice (max (max (a.rng.lo * b.rng.lo) (a.rng.lo * b.rng.hi)) (a.rng.hi * b.rng.lo))
      (a.rng.hi * b.rng.hi) with e | e
    · rcases max_choice (max (a.rng.lo * b.rng.lo) (a.rng.lo * b.rng.hi)) (a.rng.hi * b.rng.lo) with f | f
      · rcases max_choice (a.rng.lo * b.rng.lo) (a.rng.lo * b.rng.hi) with g | g
        · exact ⟨a.rng.lo, b.rng.lo, by omega, by omega, by rw [e, f, g]⟩
        · exact ⟨a.rng.lo, b.rng.hi, by omega, by omega, by rw [e, f, g]⟩
      · exact ⟨a.rng.hi, b.rng.lo, by omega, by omega, by rw [e, f]⟩
    · exact ⟨a.rng.hi, b.rng.hi, by omega, by omega, by rw [e]⟩

example : mul 128 ⟨⟨-5, 10⟩, -5⟩ ⟨⟨-3, 255⟩, 255⟩ = some (.ok ⟨⟨-1275, 2550⟩, -1275⟩) := by
  decide +kernel
example : ∀ p ∈ [(-5 : Int) * -3, -5 * 255, 10 * -3, 10 * 255], (-(2 ^ (128 - 1)) : Int) ≤ p := by
  decide +kernel

/-! ## C03 -/

/-- C03: whenever `-a` compiles it evaluates to the mathematical negation with
declared range `[-max, -min]`. -/
theorem C03_neg_exact (hW : 64 ≤ W) {a : BInt} {x : Int} (ha : Holds W a x)
    (hc : neg W a ≠ none) : Yields (neg W a) ⟨-a.rng.hi, -a.rng.lo⟩ (-x) := by
  cases hr : negTy W a.rng with
  | none => exact absurd (by unfold neg; rw [hr]; rfl) hc
  | some r =>
    obtain ⟨c, h1, h2, h3, h4, h5⟩ := neg_value hW ha.1 hr ha.2
    rw [← h4]
    exact yields_of hW ⟨c, h1, h2, h3⟩ h5

/-- C03: `-a` is rejected exactly when the negated bounds fit no built-in type. -/
theorem C03_neg_rejected_iff (hW : 64 ≤ W) {a : BInt} (ha : a.rng.Wf W) :
    neg W a = none ↔ ¬ ((0 ≤ -a.rng.hi ∧ -a.rng.lo < 2 ^ W) ∨
      (-(2 ^ (W - 1)) ≤ -a.rng.hi ∧ -a.rng.lo < 2 ^ (W - 1))) := by
  have h : neg W a = none ↔ negTy W a.rng = none := by
    unfold neg
    cases negTy W a.rng <;> simp
  rw [h, negTy_eq hW ha, mkInteger_eq hW]
  have h1 := ((wf_iff hW _).mp ha).1
  have : -a.rng.hi ≤ -a.rng.lo := by omega
  simp only [this, Storable, true_and]
  split <;> simp_all

/-- C03: whenever `a - b` compiles it evaluates to the mathematical difference with
declared range `[amin - bmax, amax - bmin]`. -/
theorem C03_sub_exact (hW : 64 ≤ W) {a b : BInt} {x y : Int} (ha : Holds W a x) (hb : Holds W b y)
    (hc : minus W a b ≠ none) :
    Yields (minus W a b) ⟨a.rng.lo - b.rng.hi, a.rng.hi - b.rng.lo⟩ (x - y) := by
  cases hr : minusTy W a.rng b.rng with
  | none =>
    refine absurd ?_ hc
    unfold minusTy at hr
    unfold minus
    cases hn : negTy W b.rng with
    | none => unfold neg; rw [hn]; rfl
    | some nt =>
      rw [hn] at hr
      simp only [Option.bind_eq_bind, Option.bind_some] at hr
      simp [hr]
  | some r =>
    obtain ⟨c, h1, h2, h3, h4, h5⟩ := minus_value hW ha.1 hb.1 hr ha.2 hb.2
    rw [← h4]
    exact yields_of hW ⟨c, h1, h2, h3⟩ h5

/-- Negating the minimum of the 8-bit signed type, which its own type cannot hold. -/
example : neg 128 ⟨⟨-128, 127⟩, -128⟩ = some (.ok ⟨⟨-127, 128⟩, 128⟩) := by decide +kernel
example : Holds 128 ⟨⟨-128, 127⟩, -128⟩ (-128) := by unfold Holds; decide +kernel
example : minus 128 ⟨⟨0, 255⟩, 3⟩ ⟨⟨0, 255⟩, 200⟩ = some (.ok ⟨⟨-255, 255⟩, -197⟩) := by decide +kernel

/-! ## C04 -/

/-- C04: whenever `a / b` compiles and the divisor is not zero it evaluates to the
quotient truncated toward zero (the unique `q` with `x = q*y + r`, `|r| < |y|` and
`r` of the sign of `x`, i.e. `Int.tdiv`), inside the declared range. -/
theorem C04_div_exact (hW : 64 ≤ W) {a b : BInt} {x y : Int} (ha : Holds W a x) (hb : Holds W b y)
    (hc : div W a b ≠ none) (hy : y ≠ 0) : ∃ r, Yields (div W a b) r (x.tdiv y) := by
  cases hr : divTy W a.rng b.rng with
  | none => exact absurd (by unfold div; rw [hr]; rfl) hc
  | some p =>
    obtain ⟨c, h1, h2, h3, h5⟩ := (div_value hW ha.1 hb.1 hr ha.2 hb.2).1 hy
    exact ⟨p.1, yields_of hW ⟨c, h1, h2, h3⟩ h5⟩

/-- C04: a divisor type whose range begins or ends at zero is rejected at compile time. -/
theorem C04_zero_bound_rejected (W : Nat) (a b : BInt) (h : b.rng.lo = 0 ∨ b.rng.hi = 0) : div W a b = none := by
  unfold div divTy
  simp [h]

/-- A divisor of type `integer<-3, 0>`. -/
example : div 128 ⟨⟨0, 9⟩, 5⟩ ⟨⟨-3, 0⟩, -2⟩ = none := C04_zero_bound_rejected 128 _ _ (Or.inr rfl)

/-- C04: division by zero is the only undefined case. -/
theorem C04_div_undefined_iff (hW : 64 ≤ W) {a b : BInt} {x y : Int} (ha : Holds W a x)
    (hb : Holds W b y) (hc : div W a b ≠ none) : div W a b = some .ub ↔ y = 0 := by
  cases hr : divTy W a.rng b.rng with
  | none => exact absurd (by unfold div; rw [hr]; rfl) hc
  | some p =>
    have h := div_value hW ha.1 hb.1 hr ha.2 hb.2
    constructor
    · intro hu
      by_contra hy
      obtain ⟨c, h1, _⟩ := h.1 hy
      rw [h1] at hu
      simp at hu
    · exact h.2

/-- MIN / -1 for the 32-bit signed range, and a divisor range that spans zero. -/
example : div 128 ⟨⟨-2147483648, 2147483647⟩, -2147483648⟩ ⟨⟨-7, 3⟩, -1⟩ =
    some (.ok ⟨⟨-2147483648, 2147483648⟩, 2147483648⟩) := by decide +kernel
example : div 128 ⟨⟨-5, 10⟩, 7⟩ ⟨⟨-7, 3⟩, 0⟩ = some .ub := by decide +kernel
example : Holds 128 ⟨⟨-7, 3⟩, -1⟩ (-1) := by unfold Holds; decide +kernel

end Verif.Bounded
