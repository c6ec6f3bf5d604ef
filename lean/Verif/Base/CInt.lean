import Verif.Base.Res

/-!
# Built-in integer types of C++20

Two's complement types of arbitrary width, modular conversion, integer
promotion and the arithmetic operators with their undefined cases.
-/

namespace Verif

/-- A built-in integer type: signedness and width in bits. -/
structure CTy where
  signed : Bool
  bits : Nat
  deriving Repr, DecidableEq

namespace CTy

/-- `std::numeric_limits<T>::min()`. -/
def lo (t : CTy) : Int := if t.signed then -(2 ^ (t.bits - 1)) else 0

/-- `std::numeric_limits<T>::max()`. -/
def hi (t : CTy) : Int := if t.signed then 2 ^ (t.bits - 1) - 1 else 2 ^ t.bits - 1

/-- `v` is a value of type `t`. -/
abbrev Fits (t : CTy) (v : Int) : Prop := t.lo ≤ v ∧ v ≤ t.hi

/-- Conversion of an integer value to type `t` (C++20 [conv.integral]: the unique
value of `t` congruent modulo `2^bits`). -/
def wrap (t : CTy) (v : Int) : Int :=
  if t.signed then
    let m := v % 2 ^ t.bits
    if m < 2 ^ (t.bits - 1) then m else m - 2 ^ t.bits
  else v % 2 ^ t.bits

/-- Integer promotion [conv.prom]: types narrower than `int` (32 bits) become
`int`. -/
def promote (t : CTy) : CTy := if t.bits < 32 then ⟨true, 32⟩ else t

/-- A mathematical result `r` of `+`, `-` or `*` carried out in type `t`:
unsigned arithmetic is modular, signed overflow is undefined. -/
def arith (t : CTy) (r : Int) : Res Int :=
  if t.signed then (if t.Fits r then .ok r else .ub) else .ok (r % 2 ^ t.bits)

/-- `a / b` on two operands of (promoted) type `t` [expr.mul]. -/
def div (t : CTy) (a b : Int) : Res Int :=
  if b = 0 then .ub else if t.Fits (a.tdiv b) then .ok (a.tdiv b) else .ub

/-- `a % b` on two operands of (promoted) type `t` [expr.mul]: undefined whenever
`a / b` is. -/
def mod (t : CTy) (a b : Int) : Res Int :=
  if b = 0 then .ub else if t.Fits (a.tdiv b) then .ok (a.tmod b) else .ub

/-- `a << b` in C++20 [expr.shift]: undefined if `b` is negative or not less than
the width, otherwise `a * 2^b` modulo `2^bits`. -/
def shl (t : CTy) (a b : Int) : Res Int :=
  if 0 ≤ b ∧ b < t.bits then .ok (t.wrap (a * 2 ^ b.toNat)) else .ub

/-- `a >> b` in C++20 [expr.shift]: arithmetic shift, rounding toward negative
infinity. -/
def shr (t : CTy) (a b : Int) : Res Int :=
  if 0 ≤ b ∧ b < t.bits then .ok (a / 2 ^ b.toNat) else .ub

/-! ## Facts about conversion -/

theorem two_pow_pos (n : Nat) : (0 : Int) < 2 ^ n := Int.pow_pos (by decide)

theorem two_pow_pred {n : Nat} (h : 1 ≤ n) : (2 : Int) ^ n = 2 * 2 ^ (n - 1) := by
  obtain ⟨k, rfl⟩ : ∃ k, n = k + 1 := ⟨n - 1, by omega⟩
  simp [Int.pow_succ, Int.mul_comm]

theorem two_pow_le {m n : Nat} (h : m ≤ n) : (2 : Int) ^ m ≤ 2 ^ n := by
  have := Nat.pow_le_pow_right (n := 2) (by decide) h
  exact_mod_cast this

theorem emod_eq_of_lt {a m : Int} (h0 : 0 ≤ a) (h1 : a < m) : a % m = a :=
  Int.emod_eq_of_lt h0 h1

/-- Conversion of a value that already fits is the identity. -/
theorem wrap_of_fits {t : CTy} (hb : 1 ≤ t.bits) {v : Int} (h : t.Fits v) : t.wrap v = v := by
  have h2 := two_pow_pred hb
  have hp := two_pow_pos (t.bits - 1)
  unfold Fits lo hi at h
  unfold wrap
  cases ht : t.signed <;> simp only [ht, if_true, Bool.false_eq_true, if_false] at h ⊢
  · exact Int.emod_eq_of_lt h.1 (by omega)
  · by_cases hv : 0 ≤ v
    · rw [Int.emod_eq_of_lt hv (by omega)]; rw [if_pos (by omega)]
    · have : v % 2 ^ t.bits = v + 2 ^ t.bits := by
        rw [← Int.add_emod_right (a := v)]
        exact Int.emod_eq_of_lt (by omega) (by omega)
      rw [this, if_neg (by omega)]; omega

/-- Conversion is congruent to its argument modulo `2^bits`. -/
theorem wrap_emod (t : CTy) (v : Int) : t.wrap v % 2 ^ t.bits = v % 2 ^ t.bits := by
  unfold wrap
  cases t.signed <;> simp
  split <;> simp

/-- Conversion yields a value of the type. -/
theorem wrap_fits {t : CTy} (hb : 1 ≤ t.bits) (v : Int) : t.Fits (t.wrap v) := by
  have h2 := two_pow_pred hb
  have hp := two_pow_pos (t.bits - 1)
  have hm0 := Int.emod_nonneg v (show (2 : Int) ^ t.bits ≠ 0 by omega)
  have hm1 := Int.emod_lt_of_pos v (show (0 : Int) < 2 ^ t.bits by omega)
  unfold Fits lo hi wrap
  cases t.signed <;> simp
  · omega
  · split <;> omega

/-- Conversion depends only on the residue. -/
theorem wrap_congr {t : CTy} {v w : Int} (h : v % 2 ^ t.bits = w % 2 ^ t.bits) :
    t.wrap v = t.wrap w := by
  unfold wrap; simp only [h]

/-- Converting through a type at least as wide does not change the result. -/
theorem emod_two_pow_of_le {m n : Nat} (h : m ≤ n) (v : Int) :
    v % 2 ^ n % 2 ^ m = v % 2 ^ m :=
  Int.emod_emod_of_dvd v (pow_dvd h)
where
  pow_dvd {m n : Nat} (h : m ≤ n) : (2 : Int) ^ m ∣ 2 ^ n := by
    obtain ⟨k, rfl⟩ := Nat.exists_eq_add_of_le h
    exact ⟨2 ^ k, by rw [Int.pow_add]⟩

/-- If an intermediate value is congruent modulo `2^n` (`n` at least as wide as
`t`) to a mathematical value that fits `t`, converting the intermediate value to
`t` gives the mathematical value. This is the heart of every "compute modulo the
widest unsigned type, then narrow" step of the library. -/
theorem wrap_of_congr {t : CTy} (hb : 1 ≤ t.bits) {n : Nat} (hn : t.bits ≤ n) {i v : Int}
    (hc : i % 2 ^ n = v % 2 ^ n) (h : t.Fits v) : t.wrap i = v := by
  rw [← wrap_of_fits hb h]
  apply wrap_congr
  rw [← emod_two_pow_of_le hn i, hc, emod_two_pow_of_le hn v]

end CTy
end Verif
