import Mathlib.Data.Nat.Bitwise
import Mathlib.Tactic.Ring
import Mathlib.Tactic.Linarith
import Verif.Algo.Order

/-!
# Radix sort keys (C43)

`containers/algorithms/sort/to_radix_sort_key.cpp`. An unsigned builtin of `w` bits is a natural number below `2 ^ w`; a
signed one is an integer. A floating point value is its bit pattern.
-/

namespace Verif.Algo

/-! ## The model -/

/-- The bits of a builtin integer: conversion to the unsigned type of the same width. -/
def toUnsigned (w : Nat) (v : Int) : Nat := (v % 2 ^ w).toNat

/-- `to_radix_sort_key(bool)` (`to_radix_sort_key.cpp` 53-55); as a digit, `false` is 0. -/
def radixBool (b : Bool) : Bool := b

/-- `to_radix_sort_key` of an unsigned builtin, of `std::byte` and of a pointer converted to an integer
(`to_radix_sort_key.cpp` 57-59, 65-66, 94-96). -/
def radixUnsigned (v : Nat) : Nat := v

/-- `to_radix_sort_key` of a signed builtin (`to_radix_sort_key.cpp` 67-71). For types narrower than `int` the sum
is computed in `int`; the conversion afterwards gives the same bits. Bounded integers and enumerations
(lines 74-81) forward to their builtin. -/
def radixSigned (w : Nat) (v : Int) : Nat := (toUnsigned w v + toUnsigned w (-2 ^ (w - 1))) % 2 ^ w

/-- `to_radix_sort_key` of a character type (`to_radix_sort_key.cpp` 63-64). -/
def radixChar (w : Nat) (v : Int) : Nat := toUnsigned w v

/-- `to_radix_sort_key` of a floating point type of `w` bits with the bit pattern `u`
(`to_radix_sort_key.cpp` 83-92). `sign_bit` is minus the top bit, converted back to unsigned. -/
def radixFloat (w u : Nat) : Nat :=
  let signBit := toUnsigned w (-((u >>> (w - 1) : Nat) : Int))
  u ^^^ (signBit ||| 1 <<< (w - 1))

/-! ## Specification of floating point values (IEEE 754) -/

/-- The magnitude of the bits below the sign, with `p` bits of fraction, in units of the smallest
subnormal number. Infinity is treated as the next number after the largest finite one. -/
def floatMagnitude (p mag : Nat) : Nat :=
  let e := mag / 2 ^ p
  let f := mag % 2 ^ p
  if e = 0 then f else (2 ^ p + f) * 2 ^ (e - 1)

/-- The value of a bit pattern that is not a NaN, in units of the smallest subnormal number. -/
def floatValue (w p u : Nat) : Int :=
  if u < 2 ^ (w - 1) then floatMagnitude p u else -(floatMagnitude p (u - 2 ^ (w - 1)) : Int)

/-- All exponent bits are set and the fraction is not zero. -/
def floatNaN (w p u : Nat) : Prop :=
  2 ^ (w - 1 - p) - 1 = (u % 2 ^ (w - 1)) / 2 ^ p ∧ u % 2 ^ p ≠ 0

/-! ## Integers -/

theorem C43_bool (x y : Bool) : ((!x && y) = true ↔ (!radixBool x && radixBool y) = true) ∧ (radixBool x = radixBool y → x = y) := ⟨Iff.rfl, id⟩

theorem C43_unsigned (x y : Nat) : (x < y ↔ radixUnsigned x < radixUnsigned y) ∧ (radixUnsigned x = radixUnsigned y → x = y) := ⟨Iff.rfl, id⟩

theorem pow_pred {w : Nat} (hw : 0 < w) : (2 : Int) ^ w = 2 * 2 ^ (w - 1) := by
  conv_lhs => rw [show w = (w - 1) + 1 by omega, pow_succ]
  ring

theorem pow_pred_nat {w : Nat} (hw : 0 < w) : (2 : Nat) ^ w = 2 * 2 ^ (w - 1) := by
  conv_lhs => rw [show w = (w - 1) + 1 by omega, pow_succ]
  ring

theorem toUnsigned_nonneg {w : Nat} {v : Int} (h0 : 0 ≤ v) (h1 : v < 2 ^ w) : (toUnsigned w v : Int) = v := by
  rw [toUnsigned, Int.emod_eq_of_lt h0 h1, Int.toNat_of_nonneg h0]

theorem toUnsigned_neg {w : Nat} {v : Int} (h0 : v < 0) (h1 : -2 ^ w ≤ v) : (toUnsigned w v : Int) = v + 2 ^ w := by
  rw [toUnsigned, ← Int.add_emod_right, Int.emod_eq_of_lt (by omega) (by omega), Int.toNat_of_nonneg (by omega)]

theorem radixSigned_eq {w : Nat} (hw : 0 < w) {v : Int} (h0 : -2 ^ (w - 1) ≤ v) (h1 : v < 2 ^ (w - 1)) : (radixSigned w v : Int) = v + 2 ^ (w - 1) := by
  have hp := pow_pred hw
  have hpos : (0 : Int) < 2 ^ (w - 1) := by positivity
  have hmin : (toUnsigned w (-2 ^ (w - 1)) : Int) = 2 ^ (w - 1) := by
    rw [toUnsigned_neg (by omega) (by omega)]; omega
  rw [radixSigned, Int.natCast_emod, Int.natCast_add, hmin, Int.natCast_pow]
  by_cases hv : 0 ≤ v
  · rw [toUnsigned_nonneg hv (by omega), Int.emod_eq_of_lt (by omega) (by push_cast; omega)]
  · rw [toUnsigned_neg (by omega) (by omega)]
    push_cast
    rw [show v + 2 ^ w + 2 ^ (w - 1) = v + 2 ^ (w - 1) + 2 ^ w by ring, Int.add_emod_right, Int.emod_eq_of_lt (by omega) (by omega)]

/-- Keys of signed integers of any width fit the unsigned type and are ordered like the values. -/
theorem C43_signed {w : Nat} (hw : 0 < w) {x y : Int} (hx : -2 ^ (w - 1) ≤ x ∧ x < 2 ^ (w - 1)) (hy : -2 ^ (w - 1) ≤ y ∧ y < 2 ^ (w - 1)) :
    radixSigned w x < 2 ^ w ∧ (x < y ↔ radixSigned w x < radixSigned w y) ∧ (radixSigned w x = radixSigned w y → x = y) := by
  have ex := radixSigned_eq hw hx.1 hx.2
  have ey := radixSigned_eq hw hy.1 hy.2
  refine ⟨Nat.mod_lt _ (by positivity), ?_, ?_⟩ <;> omega

/-- Keys of unsigned character types are ordered like the values. -/
theorem C43_char_unsigned {w : Nat} {x y : Int} (hx : 0 ≤ x ∧ x < 2 ^ w) (hy : 0 ≤ y ∧ y < 2 ^ w) :
    (x < y ↔ radixChar w x < radixChar w y) ∧ (radixChar w x = radixChar w y → x = y) := by
  have ex := toUnsigned_nonneg hx.1 hx.2
  have ey := toUnsigned_nonneg hy.1 hy.2
  simp only [radixChar]
  constructor <;> omega

/-- Keys of a signed character type are ordered like the values among the negative ones and among
the others. Missing: a negative value and one that is not, see `C43_char_violated`. -/
theorem C43_char_partial {w : Nat} (hw : 0 < w) {x y : Int} (hx : -2 ^ (w - 1) ≤ x ∧ x < 2 ^ (w - 1)) (hy : -2 ^ (w - 1) ≤ y ∧ y < 2 ^ (w - 1)) :
    ((0 ≤ x ↔ 0 ≤ y) → (x < y ↔ radixChar w x < radixChar w y)) ∧ (radixChar w x = radixChar w y → x = y) := by
  have hp := pow_pred hw
  have hpos : (0 : Int) < 2 ^ (w - 1) := by positivity
  simp only [radixChar]
  by_cases h1 : 0 ≤ x <;> by_cases h2 : 0 ≤ y
  · have ex := toUnsigned_nonneg h1 (show x < 2 ^ w by omega)
    have ey := toUnsigned_nonneg h2 (show y < 2 ^ w by omega)
    constructor <;> omega
  · have ex := toUnsigned_nonneg h1 (show x < 2 ^ w by omega)
    have ey := toUnsigned_neg (w := w) (show y < 0 by omega) (by omega)
    constructor <;> omega
  · have ex := toUnsigned_neg (w := w) (show x < 0 by omega) (by omega)
    have ey := toUnsigned_nonneg h2 (show y < 2 ^ w by omega)
    constructor <;> omega
  · have ex := toUnsigned_neg (w := w) (show x < 0 by omega) (by omega)
    have ey := toUnsigned_neg (w := w) (show y < 0 by omega) (by omega)
    constructor <;> omega

/-- Where `char` is signed every negative character has a larger key than every other one. -/
theorem C43_char_violated {w : Nat} (hw : 0 < w) {x y : Int} (hx : -2 ^ (w - 1) ≤ x ∧ x < 0) (hy : 0 ≤ y ∧ y < 2 ^ (w - 1)) :
    x < y ∧ ¬ radixChar w x < radixChar w y := by
  have hp := pow_pred hw
  have hpos : (0 : Int) < 2 ^ (w - 1) := by positivity
  have ex := toUnsigned_neg (w := w) hx.2 (by omega)
  have ey := toUnsigned_nonneg hy.1 (show y < 2 ^ w by omega)
  simp only [radixChar]
  constructor <;> omega

/-! ## Floating point -/

theorem xor_ones {w u : Nat} (hu : u < 2 ^ w) : u ^^^ (2 ^ w - 1) = 2 ^ w - 1 - u := by
  apply Nat.eq_of_testBit_eq
  intro i
  rw [Nat.testBit_xor, Nat.testBit_two_pow_sub_one, show 2 ^ w - 1 - u = 2 ^ w - (u + 1) by omega, Nat.testBit_two_pow_sub_succ hu]
  by_cases hi : i < w
  · simp [hi]
  · have : u.testBit i = false := Nat.testBit_lt_two_pow (lt_of_lt_of_le hu (Nat.pow_le_pow_right (by omega) (by omega)))
    simp [hi, this]

theorem radixFloat_pos {w u : Nat} (hw : 0 < w) (hu : u < 2 ^ (w - 1)) : radixFloat w u = u + 2 ^ (w - 1) := by
  have h1 : u >>> (w - 1) = 0 := by rw [Nat.shiftRight_eq_div_pow, Nat.div_eq_of_lt hu]
  have h2 : toUnsigned w (-((0 : Nat) : Int)) = 0 := by simp [toUnsigned]
  simp only [radixFloat, h1, h2, Nat.zero_or, Nat.shiftLeft_eq, one_mul]
  apply Nat.eq_of_testBit_eq
  intro i
  rw [Nat.add_comm, Nat.testBit_xor, Nat.testBit_two_pow]
  by_cases hi : w - 1 = i
  · subst hi
    rw [Nat.testBit_two_pow_add_eq]; simp
  · simp only [hi, decide_false, Bool.xor_false]
    by_cases hlt : i < w - 1
    · rw [Nat.testBit_two_pow_add_gt hlt]
    · have e1 : u.testBit i = false := Nat.testBit_lt_two_pow (lt_of_lt_of_le hu (Nat.pow_le_pow_right (by omega) (by omega)))
      rw [e1, Nat.testBit_lt_two_pow]
      have : 2 ^ (w - 1) * 2 ≤ 2 ^ i := by
        rw [← pow_succ]; exact Nat.pow_le_pow_right (by omega) (by omega)
      omega

theorem radixFloat_neg {w u : Nat} (hw : 0 < w) (h1 : 2 ^ (w - 1) ≤ u) (hu : u < 2 ^ w) : radixFloat w u = 2 ^ w - 1 - u := by
  have hp := pow_pred_nat hw
  have hs : u >>> (w - 1) = 1 := by
    rw [Nat.shiftRight_eq_div_pow]
    exact Nat.div_eq_of_lt_le (by omega) (by omega)
  have h2 : toUnsigned w (-((1 : Nat) : Int)) = 2 ^ w - 1 := by
    have := toUnsigned_neg (w := w) (v := -((1 : Nat) : Int)) (by omega) (by
      have : (0 : Int) < 2 ^ w := by positivity
      omega)
    have hpos : 0 < 2 ^ w := by positivity
    push_cast at this
    zify
    rw [Int.natCast_sub (by omega)]
    push_cast
    omega
  simp only [radixFloat, hs, h2, Nat.shiftLeft_eq, one_mul]
  rw [← xor_ones hu]
  congr 1
  apply Nat.eq_of_testBit_eq
  intro i
  rw [Nat.testBit_or, Nat.testBit_two_pow_sub_one, Nat.testBit_two_pow]
  by_cases hi : w - 1 = i
  · subst hi; simp [hw]
  · simp [hi]

theorem floatMagnitude_lt_succ (p mag : Nat) : floatMagnitude p mag < floatMagnitude p (mag + 1) := by
  have hpp : 0 < 2 ^ p := by positivity
  have hd := Nat.div_add_mod mag (2 ^ p)
  have hm := Nat.mod_lt mag hpp
  generalize he : mag / 2 ^ p = e at hd
  generalize hf : mag % 2 ^ p = f at hd hm
  by_cases hfull : f + 1 < 2 ^ p
  · have e1 : (mag + 1) / 2 ^ p = e := by
      rw [← hd, Nat.add_assoc, Nat.mul_add_div hpp, Nat.div_eq_of_lt hfull, Nat.add_zero]
    have f1 : (mag + 1) % 2 ^ p = f + 1 := by
      rw [← hd, Nat.add_assoc, Nat.mul_add_mod, Nat.mod_eq_of_lt hfull]
    simp only [floatMagnitude, he, hf, e1, f1]
    split
    · omega
    · exact Nat.mul_lt_mul_of_pos_right (by omega) (by positivity)
  · have hfe : f + 1 = 2 ^ p := by omega
    have hms : mag + 1 = 2 ^ p * (e + 1) := by rw [← hd, Nat.add_assoc, hfe]; ring
    have e1 : (mag + 1) / 2 ^ p = e + 1 := by rw [hms, Nat.mul_div_cancel_left _ hpp]
    have f1 : (mag + 1) % 2 ^ p = 0 := by rw [hms, Nat.mul_mod_right]
    simp only [floatMagnitude, he, hf, e1, f1]
    rw [if_neg (Nat.succ_ne_zero e)]
    split
    · rename_i h0
      subst h0
      simp; omega
    · rename_i h0
      obtain ⟨e', rfl⟩ : ∃ e', e = e' + 1 := ⟨e - 1, by omega⟩
      simp only [Nat.add_sub_cancel, Nat.add_zero]
      rw [pow_succ, ← Nat.mul_assoc, Nat.mul_right_comm]
      exact Nat.mul_lt_mul_of_pos_right (by omega) (by positivity)

theorem floatMagnitude_strictMono (p : Nat) : StrictMono (floatMagnitude p) := strictMono_nat_of_lt_succ (floatMagnitude_lt_succ p)

theorem floatMagnitude_zero (p : Nat) : floatMagnitude p 0 = 0 := by simp [floatMagnitude]

/-- Keys of floating point values are ordered like the values; the only distinct keys of equal values
are those of the two zeros (see `C43_zero_violated`). The order is `<` on values that are not NaN. -/
theorem C43_float_partial {w p x y : Nat} (hw : 0 < w) (hx : x < 2 ^ w) (hy : y < 2 ^ w) (_ : ¬ floatNaN w p x) (_ : ¬ floatNaN w p y) :
    (floatValue w p x < floatValue w p y → radixFloat w x < radixFloat w y) ∧
    (radixFloat w x < radixFloat w y → floatValue w p x < floatValue w p y ∨ (x = 2 ^ (w - 1) ∧ y = 0)) ∧
    (radixFloat w x = radixFloat w y → x = y) ∧ radixFloat w x < 2 ^ w := by
  have hp := pow_pred_nat hw
  have mono := floatMagnitude_strictMono p
  have m0 := floatMagnitude_zero p
  by_cases h1 : x < 2 ^ (w - 1) <;> by_cases h2 : y < 2 ^ (w - 1)
  · have := mono.lt_iff_lt (a := x) (b := y)
    rw [radixFloat_pos hw h1, radixFloat_pos hw h2, floatValue, floatValue, if_pos h1, if_pos h2]
    omega
  · rw [radixFloat_pos hw h1, radixFloat_neg hw (by omega) hy, floatValue, floatValue, if_pos h1, if_neg h2]
    omega
  · have h3 := mono.lt_iff_lt (a := 0) (b := x - 2 ^ (w - 1))
    have h4 := mono.lt_iff_lt (a := 0) (b := y)
    rw [radixFloat_neg hw (by omega) hx, radixFloat_pos hw h2, floatValue, floatValue, if_neg h1, if_pos h2]
    omega
  · have := mono.lt_iff_lt (a := y - 2 ^ (w - 1)) (b := x - 2 ^ (w - 1))
    rw [radixFloat_neg hw (by omega) hx, radixFloat_neg hw (by omega) hy, floatValue, floatValue, if_neg h1, if_neg h2]
    omega

/-- Negative zero is not less than zero but its key is. -/
theorem C43_zero_violated {w p : Nat} (hw : 0 < w) :
    ¬ floatValue w p (2 ^ (w - 1)) < floatValue w p 0 ∧ radixFloat w (2 ^ (w - 1)) < radixFloat w 0 := by
  have hp := pow_pred_nat hw
  have hpos : 0 < 2 ^ (w - 1) := by positivity
  rw [radixFloat_pos hw hpos, radixFloat_neg hw (Nat.le_refl _) (by omega)]
  simp [floatValue, floatMagnitude_zero]
  omega

/-! ## Examples -/

example : (-128 : Int) ≥ -2 ^ (8 - 1) ∧ radixSigned 8 (-128) = 0 ∧ radixSigned 8 (-1) = 127 ∧ radixSigned 8 0 = 128 ∧ radixSigned 8 127 = 255 := by decide
example : radixChar 8 (-1) = 255 ∧ radixChar 8 65 = 65 := by decide
/-- `1.0f`, `-1.0f`, infinity and a NaN. -/
example : radixFloat 32 0x3F800000 = 0xBF800000 ∧ radixFloat 32 0xBF800000 = 0x407FFFFF ∧ ¬ floatNaN 32 23 0x7F800000 ∧ floatNaN 32 23 0x7F800001 := by
  simp only [floatNaN]; decide +kernel

end Verif.Algo
