import Mathlib.Data.Int.Bitwise
import Verif.Bounded.ModProps

/-!
# Shifts and bitwise and (C07, C08)
-/

namespace Verif.Bounded

open Verif

/-- A constant expression: undefined behaviour is a compile-time error. -/
def constEval {α : Type} : Res α → Option α
  | .ok v => some v
  | _ => none

/-- source/bounded/arithmetic/left_shift.cpp 22-26: the compile-time part of
`operator<<`. -/
def shlTy (W : Nat) (a b : Rng) : Option (Rng × CTy) := do
  let lo ← constEval ((smax W).shl ((smax W).wrap a.lo) b.lo)
  let hi ← constEval ((smax W).shl ((smax W).wrap a.hi) b.hi)
  let r ← mkInteger W lo hi
  let c ← commonType3 W r a b
  return (r, c.under W)

/-- source/bounded/arithmetic/left_shift.cpp 19-34 `operator<<`. -/
def shl (W : Nat) (a b : BInt) : Option (Res BInt) := do
  let (r, common) ← shlTy W a.rng b.rng
  return do
    let x ← a.value
    let y ← b.value
    let q ← common.promote.shl (common.wrap x) (common.wrap y)
    return r.unchecked W q

/-- source/bounded/arithmetic/right_shift.cpp 22-26: the compile-time part of
`operator>>`. -/
def shrTy (W : Nat) (a b : Rng) : Option (Rng × CTy) := do
  let lo ← constEval ((smax W).shr ((smax W).wrap a.lo) b.hi)
  let hi ← constEval ((smax W).shr ((smax W).wrap a.hi) b.lo)
  let r ← mkInteger W lo hi
  let c ← commonType3 W r a b
  return (r, c.under W)

/-- source/bounded/arithmetic/right_shift.cpp 19-34 `operator>>`. -/
def shr (W : Nat) (a b : BInt) : Option (Res BInt) := do
  let (r, common) ← shrTy W a.rng b.rng
  return do
    let x ← a.value
    let y ← b.value
    let q ← common.promote.shr (common.wrap x) (common.wrap y)
    return r.unchecked W q

/-- source/bounded/arithmetic/bitwise_and.cpp 28-32: the compile-time part of
`operator&`. -/
def bitAndTy (W : Nat) (a b : Rng) : Option (Rng × CTy) := do
  let r ← mkInteger W 0 (min a.hi b.hi)
  let c ← commonType3 W r a b
  return (r, c.under W)

/-- source/bounded/arithmetic/bitwise_and.cpp 24-37 `operator&`; the built-in `&` of
two values of one type is the and of their two's complement digits. -/
def bitAnd (W : Nat) (a b : BInt) : Option (Res BInt) := do
  let (r, common) ← bitAndTy W a.rng b.rng
  return do
    let x ← a.value
    let y ← b.value
    return r.unchecked W ((common.wrap x).land (common.wrap y))

/-! ## Facts -/

section
variable {W : Nat}

theorem constEval_some {α : Type} {r : Res α} {v : α} (h : constEval r = some v) : r = .ok v := by
  cases r <;> simp_all [constEval]

/-- Facts common to the operators that compute in the common type of the result and
both operands. -/
theorem common_fits (hW : 64 ≤ W) {a b r c : Rng} (ha : a.Wf W) (hb : b.Wf W) (hr : r.Wf W)
    (hc : commonType3 W r a b = some c) :
    1 ≤ (c.under W).bits ∧ ∀ v, a.Mem v ∨ b.Mem v ∨ r.Mem v → (c.under W).Fits v := by
  have h3 := commonType3_some hW hr ha hb hc
  have hu := under_spec hW h3.2
  refine ⟨hu.1.1, ?_⟩
  intro v hv
  apply hu.2
  rw [h3.1]
  unfold Rng.Mem at *
  simp only
  omega

theorem promote_bits (t : CTy) : 32 ≤ t.promote.bits := by
  unfold CTy.promote; split
  · exact Nat.le_refl 32
  · omega

/-- A non-negative value of a type is below `2^bits`. -/
theorem lt_of_fits {t : CTy} {v : Int} (h : t.Fits v) : v < 2 ^ t.bits := by
  unfold CTy.Fits CTy.hi at h
  have h1 := CTy.two_pow_pos t.bits
  have h2 := CTy.two_pow_le (m := t.bits - 1) (n := t.bits) (by omega)
  split at h <;> omega

theorem exp_lt_of_pow_lt {m n : Nat} (h : (2 : Int) ^ m < 2 ^ n) : m < n := by
  by_contra hle
  have := CTy.two_pow_le (m := n) (n := m) (by omega)
  omega

theorem smax_wrap_bounds (hW : 64 ≤ W) (v : Int) : Rep W ((smax W).wrap v) := by
  have ⟨h1, h2⟩ := pow_facts hW
  have := CTy.wrap_fits (t := smax W) (by show 1 ≤ W; omega) v
  unfold CTy.Fits at this
  rw [smax_hi, smax_lo] at this
  unfold Rep; omega

end

variable {W : Nat}

/-! ## C07 -/

/-- C07 is false as stated for `<<`, three ways: a negative left operand leaves the
declared range (`integer<-2, 2>(-2) << integer<0, 3>(3)` has declared range
`[-2, 16]`); the compile-time bound wraps (`integer<0, 4>(3) << integer<0, 126>(1)`
has declared range `[0, 0]`); shifting a zero by the width of the storage type is
undefined. -/
theorem C07_shl_violated :
    (∃ a b x y c, Holds 128 a x ∧ Holds 128 b y ∧ shl 128 a b = some (.ok c) ∧
      c.value ≠ .ok (x * 2 ^ y.toNat) ∧ x < 0) ∧
    (∃ a b x y c, Holds 128 a x ∧ Holds 128 b y ∧ shl 128 a b = some (.ok c) ∧
      c.value ≠ .ok (x * 2 ^ y.toNat) ∧ 0 ≤ a.rng.lo) ∧
    (∃ a b x y, Holds 128 a x ∧ Holds 128 b y ∧ shl 128 a b = some .ub ∧ 0 ≤ y) := by
  refine ⟨⟨⟨⟨-2, 2⟩, -2⟩, ⟨⟨0, 3⟩, 3⟩, -2, 3, ⟨⟨-2, 16⟩, -16⟩, ?_⟩,
    ⟨⟨⟨0, 4⟩, 3⟩, ⟨⟨0, 126⟩, 1⟩, 3, 1, ⟨⟨0, 0⟩, 6⟩, ?_⟩,
    ⟨⟨⟨0, 0⟩, 0⟩, ⟨⟨0, 100⟩, 40⟩, 0, 40, ?_⟩⟩ <;> unfold Holds <;> decide +kernel

/-- C07, left shift of non-negative ranges whose exact upper bound fits
`max_signed_t`: `a << b` compiles whenever the common type exists, and evaluates to
`x * 2^y` with declared range `[amin*2^bmin, amax*2^bmax]`. Missing for the full
property: negative left operands, bounds beyond `max_signed_t`, and the always-zero
left operand shifted by 32 or more - false there (`C07_shl_violated`). -/
theorem C07_shl_exact_partial (hW : 64 ≤ W) {a b : BInt} {x y : Int} (ha : Holds W a x)
    (hb : Holds W b y) (hc : shl W a b ≠ none)
    (h0 : 0 ≤ a.rng.lo) (hb0 : 0 ≤ b.rng.lo)
    (hmax : a.rng.hi * 2 ^ b.rng.hi.toNat < 2 ^ (W - 1)) (hz : 1 ≤ a.rng.hi ∨ y < 32) :
    Yields (shl W a b) ⟨a.rng.lo * 2 ^ b.rng.lo.toNat, a.rng.hi * 2 ^ b.rng.hi.toNat⟩
      (x * 2 ^ y.toNat) := by
  have ⟨p1, p2⟩ := pow_facts hW
  have la := ((wf_iff hW _).mp ha.1).1
  have lb := ((wf_iff hW _).mp hb.1).1
  have mx := value_mem ha.2 la
  have my := value_mem hb.2 lb
  have ra := ha.1.rep hW
  have pl := CTy.two_pow_pos b.rng.lo.toNat
  have ph := CTy.two_pow_pos b.rng.hi.toNat
  have py := CTy.two_pow_pos y.toNat
  have l1 := CTy.two_pow_le (m := b.rng.lo.toNat) (n := y.toNat) (by unfold Rng.Mem at my; omega)
  have l2 := CTy.two_pow_le (m := y.toNat) (n := b.rng.hi.toNat) (by unfold Rng.Mem at my; omega)
  unfold Rng.Mem at mx my
  have ahi : a.rng.hi < 2 ^ (W - 1) := by
    have : a.rng.hi * 1 ≤ a.rng.hi * 2 ^ b.rng.hi.toNat :=
      Int.mul_le_mul_of_nonneg_left (by omega) (by omega)
    omega
  have b1 : a.rng.lo * 2 ^ b.rng.lo.toNat ≤ x * 2 ^ y.toNat :=
    Int.mul_le_mul mx.1 l1 (by omega) (by omega)
  have b2 : x * 2 ^ y.toNat ≤ a.rng.hi * 2 ^ b.rng.hi.toNat :=
    Int.mul_le_mul mx.2 l2 (by omega) (by omega)
  have b0 : 0 ≤ a.rng.lo * 2 ^ b.rng.lo.toNat := Int.mul_nonneg h0 (by omega)
  cases hr : shlTy W a.rng b.rng with
  | none => exact absurd (by unfold shl; rw [hr]; rfl) hc
  | some p =>
    obtain ⟨r, t⟩ := p
    have hr' := hr
    unfold shlTy at hr'
    simp only [Option.bind_eq_bind, Option.bind_eq_some_iff, Option.pure_def, Option.some.injEq,
      Prod.mk.injEq] at hr'
    obtain ⟨lo, hlo, hi, hhi, r', hmk, c, hcc, rfl, rfl⟩ := hr'
    have hlo := constEval_some hlo
    have hhi := constEval_some hhi
    rw [smax_wrap_of hW (by omega) (by omega)] at hlo
    rw [smax_wrap_of hW (by omega) (by omega)] at hhi
    unfold CTy.shl at hlo hhi
    split at hlo
    case isFalse => simp at hlo
    split at hhi
    case isFalse => simp at hhi
    simp only [Res.ok.injEq] at hlo hhi
    rw [smax_wrap_of hW (by omega) (by omega)] at hlo
    rw [smax_wrap_of hW (by omega) (by omega)] at hhi
    subst hlo hhi
    have hs := mkInteger_some hW hmk
    have hwf := wf_of_mk hW hmk
    rw [← hs.1]
    have hf := common_fits hW ha.1 hb.1 hwf hcc
    have hm : r'.Mem (x * 2 ^ y.toNat) := by rw [hs.1]; exact ⟨b1, b2⟩
    refine yields_of hW ?_ hwf
    unfold shl
    rw [hr]
    simp only [Option.bind_eq_bind, Option.bind_some, Option.pure_def, ha.2, hb.2, Res.ok_bind]
    rw [CTy.wrap_of_fits hf.1 (hf.2 x (Or.inl mx)),
      CTy.wrap_of_fits hf.1 (hf.2 y (Or.inr (Or.inl my)))]
    have hpb : 1 ≤ (c.under W).promote.bits := by have := promote_bits (c.under W); omega
    have hy : y.toNat < (c.under W).promote.bits := by
      rcases hz with hz | hz
      · have hh := promote_fits hf.1 (hf.2 (a.rng.hi * 2 ^ b.rng.hi.toNat)
          (Or.inr (Or.inr (by rw [hs.1]; exact ⟨by simp only; omega, by simp⟩))))
        have hlt := lt_of_fits hh
        apply exp_lt_of_pow_lt
        have : 1 * 2 ^ b.rng.hi.toNat ≤ a.rng.hi * 2 ^ b.rng.hi.toNat :=
          Int.mul_le_mul_of_nonneg_right hz (by omega)
        omega
      · have := promote_bits (c.under W); omega
    unfold CTy.shl
    rw [if_pos (by omega)]
    refine ⟨_, rfl, rfl, ?_⟩
    rw [CTy.wrap_of_fits hpb (promote_fits hf.1 (hf.2 _ (Or.inr (Or.inr hm))))]
    exact unchecked_value hW hwf hm rfl

example : shl 128 ⟨⟨1, 20⟩, 5⟩ ⟨⟨0, 40⟩, 33⟩ =
    some (.ok ⟨⟨1, 20 * 2 ^ 40⟩, 5 * 2 ^ 33⟩) := by decide +kernel
example : Holds 128 ⟨⟨1, 20⟩, 5⟩ 5 ∧ Holds 128 ⟨⟨0, 40⟩, 33⟩ 33 ∧
    (20 : Int) * 2 ^ (40 : Int).toNat < 2 ^ (128 - 1) := by
  unfold Holds; decide +kernel

/-- C07 is false as stated for `>>`: a negative left operand leaves the declared
range (`integer<-8, 8>(-8) >> integer<0, 2>(0)` has declared range `[-2, 8]`), and a
shift count not below the width of the promoted common type is undefined
(`integer<0, 1>(1) >> integer<0, 100>(50)`). -/
theorem C07_shr_violated :
    (∃ a b x y c, Holds 128 a x ∧ Holds 128 b y ∧ shr 128 a b = some (.ok c) ∧
      c.value ≠ .ok (x / 2 ^ y.toNat)) ∧
    (∃ a b x y, Holds 128 a x ∧ Holds 128 b y ∧ shr 128 a b = some .ub ∧ 0 ≤ y ∧ 0 ≤ a.rng.lo) := by
  refine ⟨⟨⟨⟨-8, 8⟩, -8⟩, ⟨⟨0, 2⟩, 0⟩, -8, 0, ⟨⟨-2, 8⟩, -8⟩, ?_⟩,
    ⟨⟨⟨0, 1⟩, 1⟩, ⟨⟨0, 100⟩, 50⟩, 1, 50, ?_⟩⟩ <;> unfold Holds <;> decide +kernel

theorem ediv_pow_anti {a : Int} {m n : Nat} (ha : 0 ≤ a) (h : m ≤ n) :
    a / 2 ^ n ≤ a / 2 ^ m := by
  have hm := CTy.two_pow_pos m
  have hn := CTy.two_pow_pos n
  have hmn := CTy.two_pow_le h
  apply Int.le_ediv_of_mul_le hm
  have h1 : a / 2 ^ n * 2 ^ n ≤ a := Int.ediv_mul_le _ (by omega)
  have h2 : 0 ≤ a / 2 ^ n := Int.ediv_nonneg ha (by omega)
  have h3 : a / 2 ^ n * 2 ^ m ≤ a / 2 ^ n * 2 ^ n := Int.mul_le_mul_of_nonneg_left hmn h2
  omega

/-- C07, right shift of a non-negative range within `max_signed_t` by less than 32 or
by at most the bit length of the declared maximum: evaluates to `floor(x / 2^y)`
inside the declared range `[floor(amin/2^bmax), floor(amax/2^bmin)]`. Missing for the
full property: negative left operands and longer shifts - false there
(`C07_shr_violated`) - and declared maxima above `max_signed_t`. -/
theorem C07_shr_exact_partial (hW : 64 ≤ W) {a b : BInt} {x y : Int} (ha : Holds W a x)
    (hb : Holds W b y) (hc : shr W a b ≠ none)
    (h0 : 0 ≤ a.rng.lo) (hb0 : 0 ≤ b.rng.lo) (hmax : a.rng.hi < 2 ^ (W - 1))
    (hz : 2 ^ y.toNat ≤ a.rng.hi ∨ y < 32) :
    Yields (shr W a b) ⟨a.rng.lo / 2 ^ b.rng.hi.toNat, a.rng.hi / 2 ^ b.rng.lo.toNat⟩
      (x / 2 ^ y.toNat) := by
  have ⟨p1, p2⟩ := pow_facts hW
  have la := ((wf_iff hW _).mp ha.1).1
  have lb := ((wf_iff hW _).mp hb.1).1
  have mx := value_mem ha.2 la
  have my := value_mem hb.2 lb
  unfold Rng.Mem at mx my
  have py := CTy.two_pow_pos y.toNat
  have b1 : a.rng.lo / 2 ^ b.rng.hi.toNat ≤ x / 2 ^ y.toNat :=
    Int.le_trans (ediv_pow_anti h0 (by omega)) (Int.ediv_le_ediv py mx.1)
  have b2 : x / 2 ^ y.toNat ≤ a.rng.hi / 2 ^ b.rng.lo.toNat :=
    Int.le_trans (Int.ediv_le_ediv py mx.2) (ediv_pow_anti (by omega) (by omega))
  cases hr : shrTy W a.rng b.rng with
  | none => exact absurd (by unfold shr; rw [hr]; rfl) hc
  | some p =>
    obtain ⟨r, t⟩ := p
    have hr' := hr
    unfold shrTy at hr'
    simp only [Option.bind_eq_bind, Option.bind_eq_some_iff, Option.pure_def, Option.some.injEq,
      Prod.mk.injEq] at hr'
    obtain ⟨lo, hlo, hi, hhi, r', hmk, c, hcc, rfl, rfl⟩ := hr'
    have hlo := constEval_some hlo
    have hhi := constEval_some hhi
    rw [smax_wrap_of hW (by omega) (by omega)] at hlo
    rw [smax_wrap_of hW (by omega) (by omega)] at hhi
    unfold CTy.shr at hlo hhi
    split at hlo
    case isFalse => simp at hlo
    split at hhi
    case isFalse => simp at hhi
    simp only [Res.ok.injEq] at hlo hhi
    subst hlo hhi
    have hs := mkInteger_some hW hmk
    have hwf := wf_of_mk hW hmk
    rw [← hs.1]
    have hf := common_fits hW ha.1 hb.1 hwf hcc
    have hm : r'.Mem (x / 2 ^ y.toNat) := by rw [hs.1]; exact ⟨b1, b2⟩
    refine yields_of hW ?_ hwf
    unfold shr
    rw [hr]
    simp only [Option.bind_eq_bind, Option.bind_some, Option.pure_def, ha.2, hb.2, Res.ok_bind]
    rw [CTy.wrap_of_fits hf.1 (hf.2 x (Or.inl mx)),
      CTy.wrap_of_fits hf.1 (hf.2 y (Or.inr (Or.inl my)))]
    have hy : y.toNat < (c.under W).promote.bits := by
      rcases hz with hz | hz
      · have hh := promote_fits hf.1 (hf.2 a.rng.hi (Or.inl ⟨la, by simp⟩))
        have hlt := lt_of_fits hh
        apply exp_lt_of_pow_lt
        omega
      · have := promote_bits (c.under W); omega
    unfold CTy.shr
    rw [if_pos (by omega)]
    exact ⟨_, rfl, rfl, unchecked_value hW hwf hm rfl⟩

example : shr 128 ⟨⟨0, 2 ^ 40⟩, 2 ^ 39 + 1⟩ ⟨⟨0, 39⟩, 38⟩ = some (.ok ⟨⟨0, 2 ^ 40⟩, 2⟩) := by
  decide +kernel
example : Holds 128 ⟨⟨0, 2 ^ 40⟩, 2 ^ 39 + 1⟩ (2 ^ 39 + 1) ∧ Holds 128 ⟨⟨0, 39⟩, 38⟩ 38 := by
  unfold Holds; decide +kernel

/-! ## C08 -/

/-- C08 is false as stated: `integer<-1, 5>(-1) & integer<-1, 5>(-1)` is `-1`, outside
the declared range `[0, 5]`. -/
theorem C08_and_violated :
    ∃ a b c, Holds 128 a (-1) ∧ Holds 128 b (-1) ∧ bitAnd 128 a b = some (.ok c) ∧
      c.rng = ⟨0, 5⟩ ∧ c.value = .ub := by
  refine ⟨⟨⟨-1, 5⟩, -1⟩, ⟨⟨-1, 5⟩, -1⟩, ⟨⟨0, 5⟩, -1⟩, ?_⟩
  unfold Holds
  decide +kernel

/-- C08 for non-negative values: the result is the number whose binary digits are the
and of the digits of the operands, inside the declared range `[0, min(amax, bmax)]`.
Missing for the full property: negative operands, where it is false
(`C08_and_violated`). -/
theorem C08_and_exact_partial (hW : 64 ≤ W) {a b : BInt} {x y : Int} (ha : Holds W a x)
    (hb : Holds W b y) (hc : bitAnd W a b ≠ none) (hx0 : 0 ≤ x) (hy0 : 0 ≤ y) :
    ∃ z, Yields (bitAnd W a b) ⟨0, min a.rng.hi b.rng.hi⟩ z ∧
      ∀ k, z.testBit k = (x.testBit k && y.testBit k) := by
  have la := ((wf_iff hW _).mp ha.1).1
  have lb := ((wf_iff hW _).mp hb.1).1
  have mx := value_mem ha.2 la
  have my := value_mem hb.2 lb
  refine ⟨x.land y, ?_, Int.testBit_land x y⟩
  obtain ⟨n, rfl⟩ := Int.eq_ofNat_of_zero_le hx0
  obtain ⟨m, rfl⟩ := Int.eq_ofNat_of_zero_le hy0
  have e : (n : Int).land (m : Int) = ((n &&& m : Nat) : Int) := rfl
  have l1 : n &&& m ≤ n := Nat.and_le_left
  have l2 : n &&& m ≤ m := Nat.and_le_right
  cases hr : bitAndTy W a.rng b.rng with
  | none => exact absurd (by unfold bitAnd; rw [hr]; rfl) hc
  | some p =>
    obtain ⟨r, t⟩ := p
    have hr' := hr
    unfold bitAndTy at hr'
    simp only [Option.bind_eq_bind, Option.bind_eq_some_iff, Option.pure_def, Option.some.injEq,
      Prod.mk.injEq] at hr'
    obtain ⟨r', hmk, c, hcc, rfl, rfl⟩ := hr'
    have hs := mkInteger_some hW hmk
    have hwf := wf_of_mk hW hmk
    rw [← hs.1]
    have hf := common_fits hW ha.1 hb.1 hwf hcc
    refine yields_of hW ?_ hwf
    unfold bitAnd
    rw [hr]
    simp only [Option.bind_eq_bind, Option.bind_some, Option.pure_def, ha.2, hb.2, Res.ok_bind]
    rw [CTy.wrap_of_fits hf.1 (hf.2 _ (Or.inl mx)),
      CTy.wrap_of_fits hf.1 (hf.2 _ (Or.inr (Or.inl my)))]
    refine ⟨_, rfl, rfl, unchecked_value hW hwf ?_ rfl⟩
    rw [hs.1, e]
    unfold Rng.Mem at *
    simp only
    omega

example : bitAnd 128 ⟨⟨0, 100⟩, 77⟩ ⟨⟨-3, 1000⟩, 999⟩ = some (.ok ⟨⟨0, 100⟩, 69⟩) := by decide +kernel
example : Holds 128 ⟨⟨0, 100⟩, 77⟩ 77 ∧ Holds 128 ⟨⟨-3, 1000⟩, 999⟩ 999 := by
  unfold Holds; decide +kernel

end Verif.Bounded
