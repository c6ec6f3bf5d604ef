import Verif.Bounded.Integer
import Mathlib.Tactic.Linarith
import Mathlib.Tactic.Ring

/-!
# Arithmetic operators of `bounded::integer`

Each operator is modelled by its compile-time part (`…Ty`, `none` = does not
compile) and its run-time part.
-/

namespace Verif.Bounded

open Verif

/-! ## Models -/

/-- source/bounded/arithmetic/plus.cpp 27-45 `safer_add<lhs, rhs>()`. -/
def saferAdd (W : Nat) (l r : Int) : Option Int :=
  let m := ((umax W).wrap l + (umax W).wrap r) % 2 ^ W
  if 0 ≤ l ∧ 0 ≤ r then
    if (umax W).wrap l ≤ m ∧ (umax W).wrap r ≤ m then some m else none
  else if l > (smax W).hi ∨ r > (smax W).hi then some m
  else if l > 0 ∨ r > 0 ∨ m > (smax W).hi then some ((smax W).wrap m)
  else none

/-- source/bounded/arithmetic/plus.cpp 49-52: the result type of `operator+`. -/
def plusTy (W : Nat) (a b : Rng) : Option Rng := do
  mkInteger W (← saferAdd W a.lo b.lo) (← saferAdd W a.hi b.hi)

/-- source/bounded/arithmetic/plus.cpp 47-58 `operator+`. -/
def plus (W : Nat) (a b : BInt) : Option (Res BInt) := do
  let r ← plusTy W a.rng b.rng
  return do
    let x ← a.value
    let y ← b.value
    let intermediate := ((umax W).wrap x + (umax W).wrap y) % 2 ^ W
    return r.unchecked W ((r.under W).wrap intermediate)

/-- source/bounded/arithmetic/unary_minus.cpp 22-32 `safer_negation<value>()`. -/
def saferNeg (W : Nat) (v : Int) : Option Int :=
  let negated := (-(umax W).wrap v) % 2 ^ W
  if v ≤ 0 then some negated
  else if v ≤ (-(umax W).wrap (smax W).lo) % 2 ^ W then some ((smax W).wrap negated)
  else none

/-- source/bounded/arithmetic/unary_minus.cpp 36-39: the result type of unary `-`. -/
def negTy (W : Nat) (a : Rng) : Option Rng := do
  mkInteger W (← saferNeg W a.hi) (← saferNeg W a.lo)

/-- `numeric_traits::promoted_unsigned<T>` (external; assumed to be the unsigned
type of the promoted width). -/
def promotedUnsigned (t : CTy) : CTy := ⟨false, t.promote.bits⟩

/-- source/bounded/arithmetic/unary_minus.cpp 34-46 unary `operator-`. -/
def neg (W : Nat) (a : BInt) : Option (Res BInt) := do
  let r ← negTy W a.rng
  return do
    let x ← a.value
    let u := promotedUnsigned (r.under W)
    return r.unchecked W ((r.under W).wrap ((-(u.wrap x)) % 2 ^ u.bits))

/-- Binary `-` (imported from the external `operators` module at
source/bounded/arithmetic/increment_decrement.cpp 24; assumed `lhs + -rhs`). -/
def minus (W : Nat) (a b : BInt) : Option (Res BInt) := do
  let nb ← neg W b
  let nt ← negTy W b.rng
  let _ ← plusTy W a.rng nt
  return do
    let nb ← nb
    (plus W a nb).getD .ub

/-- Result type of binary `-`: that of `lhs + -rhs`. -/
def minusTy (W : Nat) (a b : Rng) : Option Rng := do plusTy W a (← negTy W b)

/-- Negation in `max_unsigned_t`. -/
def unsNeg (W : Nat) (v : Int) : Int := (-v) % 2 ^ W

/-- source/bounded/arithmetic/multiplies.cpp 28-61 `safer_multiply<lhs, rhs>()`. -/
def saferMul (W : Nat) (l r : Int) : Option Int :=
  let ul := (umax W).wrap l
  let ur := (umax W).wrap r
  let m := (ul * ur) % 2 ^ W
  let neg := unsNeg W
  if (decide (l < 0) ^^ decide (r < 0)) then
    if l > 0 then (if neg m / ul = neg ur then some ((smax W).wrap m) else none)
    else if r > 0 then (if neg m / ur = neg ul then some ((smax W).wrap m) else none)
    else some ((smax W).wrap m)
  else
    if l > 0 then (if m / ul = ur then some m else none)
    else if l < 0 then (if m / neg ul = neg ur then some m else none)
    else some m

/-- source/bounded/arithmetic/multiplies.cpp 65-72: result type of `operator*`.
`safe_min`/`safe_max` of more than two arguments fold from the left
(safe_extreme.cpp 25-30, 40-45). The static types of the four products are
replaced by the normalised types of their values, which `safe_min`/`safe_max`
cannot observe (`safeMinT_val`, `safeMaxT_val`). -/
def mulTy (W : Nat) (a b : Rng) : Option Rng := do
  let p0 ← saferMul W a.lo b.lo
  let p1 ← saferMul W a.lo b.hi
  let p2 ← saferMul W a.hi b.lo
  let p3 ← saferMul W a.hi b.hi
  mkInteger W (safeMin W (safeMin W (safeMin W p0 p1) p2) p3)
    (safeMax W (safeMax W (safeMax W p0 p1) p2) p3)

/-- source/bounded/arithmetic/multiplies.cpp 63-78 `operator*`. -/
def mul (W : Nat) (a b : BInt) : Option (Res BInt) := do
  let r ← mulTy W a.rng b.rng
  return do
    let x ← a.value
    let y ← b.value
    let intermediate := ((umax W).wrap x * (umax W).wrap y) % 2 ^ W
    return r.unchecked W ((r.under W).wrap intermediate)

/-! ## Addition -/

section
variable {W : Nat}

theorem umax_wrap (W : Nat) (v : Int) : (umax W).wrap v = v % 2 ^ W := rfl
theorem smax_hi (W : Nat) : (smax W).hi = 2 ^ (W - 1) - 1 := rfl
theorem smax_lo (W : Nat) : (smax W).lo = -(2 ^ (W - 1)) := rfl

theorem smax_wrap_of (hW : 64 ≤ W) {v : Int} (h1 : -(2 ^ (W - 1)) ≤ v) (h2 : v < 2 ^ (W - 1)) :
    (smax W).wrap v = v :=
  CTy.wrap_of_fits (t := smax W) (by show 1 ≤ W; omega) ⟨by rw [smax_lo]; exact h1, by rw [smax_hi]; omega⟩

theorem smax_wrap_emod (hW : 64 ≤ W) {v : Int} (h1 : -(2 ^ (W - 1)) ≤ v) (h2 : v < 2 ^ (W - 1)) :
    (smax W).wrap (v % 2 ^ W) = v := by
  rw [← smax_wrap_of hW h1 h2]
  apply CTy.wrap_congr
  show (smax W).wrap v % 2 ^ W % 2 ^ W = v % 2 ^ W
  rw [Int.emod_emod]
  exact CTy.wrap_emod (smax W) v

theorem neg_emod_emod (v m : Int) : (-(v % m)) % m = (-v) % m := by
  have : -(v % m) = -v + m * (v / m) := by have := Int.emod_def v m; omega
  rw [this, Int.add_mul_emod_self_left]

theorem mul_emod_emod (a b m : Int) : (a % m * (b % m)) % m = (a * b) % m :=
  (Int.mul_emod a b m).symm

theorem add_emod_emod (a b m : Int) : (a % m + b % m) % m = (a + b) % m :=
  (Int.add_emod a b m).symm

theorem saferAdd_eq (hW : 64 ≤ W) {l r : Int} (hl : Rep W l) (hr : Rep W r) :
    saferAdd W l r = if Rep W (l + r) then some (l + r) else none := by
  have ⟨h1, h2⟩ := pow_facts hW
  unfold saferAdd
  simp only [umax_wrap, ← Int.add_emod, smax_hi]
  unfold Rep at *
  generalize hM : (2 : Int) ^ W = M at *
  by_cases hp : 0 ≤ l ∧ 0 ≤ r
  · rw [if_pos hp, Int.emod_eq_of_lt hp.1 hl.2, Int.emod_eq_of_lt hp.2 hr.2]
    by_cases hlt : l + r < M
    · rw [Int.emod_eq_of_lt (by omega) hlt, if_pos (by omega), if_pos (by omega)]
    · have : (l + r) % M = l + r - M := by
        rw [← Int.sub_emod_right, Int.emod_eq_of_lt (by omega) (by omega)]
      rw [this, if_neg (by omega), if_neg (by omega)]
  · rw [if_neg hp]
    split
    · rw [Int.emod_eq_of_lt (by omega) (by omega), if_pos (by omega)]
    · by_cases hs : 0 ≤ l + r
      · rw [Int.emod_eq_of_lt hs (by omega), smax_wrap_of hW (by omega) (by omega),
          if_pos (by omega), if_pos (by omega)]
      · by_cases hge : -(2 ^ (W - 1)) ≤ l + r
        · have hmod : (l + r) % M = l + r + M := by
            rw [← Int.add_emod_right, Int.emod_eq_of_lt (by omega) (by omega)]
          rw [if_pos (by rw [hmod]; omega), ← hM, smax_wrap_emod hW (by omega) (by omega),
            if_pos (by omega)]
        · have hmod : (l + r) % M ≤ 2 ^ (W - 1) - 1 := by
            by_cases heq : l + r = -M
            · rw [heq]; simp; omega
            · rw [← Int.add_emod_right, Int.emod_eq_of_lt (by omega) (by omega)]; omega
          rw [if_neg (by omega), if_neg (by omega)]

theorem plusTy_eq (hW : 64 ≤ W) {a b : Rng} (ha : a.Wf W) (hb : b.Wf W) :
    plusTy W a b = mkInteger W (a.lo + b.lo) (a.hi + b.hi) := by
  have ra := ha.rep hW
  have rb := hb.rep hW
  unfold plusTy
  rw [saferAdd_eq hW ra.1 rb.1, saferAdd_eq hW ra.2 rb.2]
  by_cases h1 : Rep W (a.lo + b.lo)
  · by_cases h2 : Rep W (a.hi + b.hi)
    · rw [if_pos h1, if_pos h2]; rfl
    · rw [if_pos h1, if_neg h2]
      unfold mkInteger
      rw [if_neg (fun h => h2 h.2.1)]; rfl
  · rw [if_neg h1]
    show none = _
    unfold mkInteger
    rw [if_neg (fun h => h1 h.1)]

theorem unchecked_wrap (r : Rng) (hb : 1 ≤ (r.under W).bits) (i : Int) :
    r.unchecked W ((r.under W).wrap i) = r.unchecked W i := by
  unfold Rng.unchecked
  rw [CTy.wrap_of_fits hb (CTy.wrap_fits hb i)]

theorem plus_value (hW : 64 ≤ W) {a b : BInt} {r : Rng} (ha : a.rng.Wf W) (hb : b.rng.Wf W)
    (hr : plusTy W a.rng b.rng = some r) {x y : Int} (hx : a.value = .ok x) (hy : b.value = .ok y) :
    ∃ c, plus W a b = some (.ok c) ∧ c.rng = r ∧ c.value = .ok (x + y) ∧
      r = ⟨a.rng.lo + b.rng.lo, a.rng.hi + b.rng.hi⟩ ∧ r.Wf W := by
  have mx := value_mem hx ((wf_iff hW _).mp ha).1
  have my := value_mem hy ((wf_iff hW _).mp hb).1
  have hr' := hr
  rw [plusTy_eq hW ha hb] at hr'
  have hwf := wf_of_mk hW hr'
  have hs := mkInteger_some hW hr'
  unfold plus
  rw [hr]
  simp only [Option.bind_eq_bind, Option.bind_some, Option.pure_def, hx, hy, Res.ok_bind, Res.pure_def]
  refine ⟨_, rfl, rfl, ?_, hs.1, hwf⟩
  rw [unchecked_wrap r (under_spec hW hwf).1.1]
  apply unchecked_value hW hwf
  · rw [hs.1]; unfold Rng.Mem at *; simp only; omega
  · simp [umax_wrap]

/-! ## Negation and subtraction -/

theorem saferNeg_eq (hW : 64 ≤ W) {v : Int} (hv : Rep W v) :
    saferNeg W v = if Rep W (-v) then some (-v) else none := by
  have ⟨h1, h2⟩ := pow_facts hW
  have e : (-((-(2 ^ (W - 1)) : Int) % 2 ^ W)) % 2 ^ W = 2 ^ (W - 1) := by
    rw [← Int.add_emod_right (a := -(2 ^ (W - 1)))]
    rw [Int.emod_eq_of_lt (a := -(2 ^ (W - 1)) + 2 ^ W) (by omega) (by omega)]
    rw [← Int.add_emod_right, Int.emod_eq_of_lt (by omega) (by omega)]; omega
  unfold saferNeg
  simp only [umax_wrap, smax_lo, e]
  have e2 : (-(v % 2 ^ W)) % 2 ^ W = (-v) % 2 ^ W := neg_emod_emod _ _
  rw [e2]
  unfold Rep at *
  split
  · rw [Int.emod_eq_of_lt (by omega) (by omega), if_pos (by omega)]
  · split
    · rw [smax_wrap_emod hW (by omega) (by omega), if_pos (by omega)]
    · rw [if_neg (by omega)]

theorem negTy_eq (hW : 64 ≤ W) {a : Rng} (ha : a.Wf W) :
    negTy W a = mkInteger W (-a.hi) (-a.lo) := by
  have ra := ha.rep hW
  unfold negTy
  rw [saferNeg_eq hW ra.1, saferNeg_eq hW ra.2]
  by_cases h1 : Rep W (-a.hi)
  · by_cases h2 : Rep W (-a.lo)
    · rw [if_pos h1, if_pos h2]; rfl
    · rw [if_pos h1, if_neg h2]
      unfold mkInteger
      rw [if_neg (fun h => h2 h.2.1)]; rfl
  · rw [if_neg h1]
    show none = _
    unfold mkInteger
    rw [if_neg (fun h => h1 h.1)]

theorem neg_value (hW : 64 ≤ W) {a : BInt} {r : Rng} (ha : a.rng.Wf W)
    (hr : negTy W a.rng = some r) {x : Int} (hx : a.value = .ok x) :
    ∃ c, neg W a = some (.ok c) ∧ c.rng = r ∧ c.value = .ok (-x) ∧
      r = ⟨-a.rng.hi, -a.rng.lo⟩ ∧ r.Wf W := by
  have mx := value_mem hx ((wf_iff hW _).mp ha).1
  have hr' := hr
  rw [negTy_eq hW ha] at hr'
  have hwf := wf_of_mk hW hr'
  have hs := mkInteger_some hW hr'
  have hu := under_spec hW hwf
  unfold neg
  rw [hr]
  simp only [Option.bind_eq_bind, Option.bind_some, Option.pure_def, hx, Res.ok_bind, Res.pure_def]
  refine ⟨_, rfl, rfl, ?_, hs.1, hwf⟩
  have hmem : r.Mem (-x) := by rw [hs.1]; unfold Rng.Mem at *; simp only; omega
  have hbits : (r.under W).bits ≤ (promotedUnsigned (r.under W)).bits := by
    unfold promotedUnsigned CTy.promote; simp only; split <;> (try simp only) <;> omega
  have : (r.under W).wrap ((-((promotedUnsigned (r.under W)).wrap x)) %
      2 ^ (promotedUnsigned (r.under W)).bits) = -x := by
    apply CTy.wrap_of_congr hu.1.1 hbits _ (hu.2 _ hmem)
    simp [promotedUnsigned, CTy.wrap, neg_emod_emod]
  rw [this]
  exact unchecked_value hW hwf hmem rfl

theorem minus_value (hW : 64 ≤ W) {a b : BInt} {r : Rng} (ha : a.rng.Wf W) (hb : b.rng.Wf W)
    (hr : minusTy W a.rng b.rng = some r) {x y : Int} (hx : a.value = .ok x) (hy : b.value = .ok y) :
    ∃ c, minus W a b = some (.ok c) ∧ c.rng = r ∧ c.value = .ok (x - y) ∧
      r = ⟨a.rng.lo - b.rng.hi, a.rng.hi - b.rng.lo⟩ ∧ r.Wf W := by
  unfold minusTy at hr
  cases hn : negTy W b.rng with
  | none => rw [hn] at hr; simp at hr
  | some n =>
    rw [hn] at hr
    simp only [Option.bind_eq_bind, Option.bind_some] at hr
    obtain ⟨nb, h1, h2, h3, h4, h5⟩ := neg_value hW hb hn hy
    obtain ⟨c, g1, g2, g3, g4, g5⟩ := plus_value hW ha (h2 ▸ h5) (h2 ▸ hr) hx h3
    refine ⟨c, ?_, g2, g3, ?_, g5⟩
    · unfold minus
      rw [h1, hn]
      simp only [Option.bind_eq_bind, Option.bind_some, hr, Option.pure_def, Res.ok_bind, g1,
        Option.getD_some]
    · rw [g4, h2, h4]
      simp only [Rng.mk.injEq]
      constructor <;> omega

/-! ## Multiplication -/

theorem quot_test {M a b : Int} (ha : 0 < a) (hb : 0 ≤ b) (hM : 0 < M) :
    (a * b) % M / a = b ↔ a * b < M := by
  have hab : 0 ≤ a * b := Int.mul_nonneg (by omega) hb
  constructor
  · intro h
    by_contra hge
    have h1 : (a * b) % M < M := Int.emod_lt_of_pos _ hM
    have h2 : (a * b) % M / a * a ≤ (a * b) % M := Int.ediv_mul_le _ (by omega)
    rw [h] at h2
    have : b * a = a * b := Int.mul_comm _ _
    omega
  · intro h
    rw [Int.emod_eq_of_lt hab h]
    exact Int.mul_ediv_cancel_left _ (by omega)

/-- Exact behaviour of `safer_multiply`: products of magnitude at least `2^W` are
rejected, representable products are returned exactly, and products strictly
between `-2^W` and `-2^(W-1)` are accepted but come out too large by `2^W`. -/
theorem saferMul_eq (hW : 64 ≤ W) {l r : Int} (hl : Rep W l) (hr : Rep W r) :
    saferMul W l r =
      if Rep W (l * r) then some (l * r)
      else if -(2 ^ W) < l * r ∧ l * r < 0 then some (l * r + 2 ^ W) else none := by
  have ⟨h1, h2⟩ := pow_facts hW
  have hMpos : (0 : Int) < 2 ^ W := by omega
  unfold saferMul
  simp only [umax_wrap, mul_emod_emod]
  have negneg : ∀ v : Int, unsNeg W (v % 2 ^ W) = (-v) % 2 ^ W := fun v => neg_emod_emod _ _
  simp only [negneg]
  unfold Rep at *
  -- wrapping a negative product
  have wrapneg : ∀ p : Int, -(2 ^ W) < p → p < 0 →
      (smax W).wrap (p % 2 ^ W) = if -(2 ^ (W - 1)) ≤ p then p else p + 2 ^ W := by
    intro p hp1 hp2
    split
    · exact smax_wrap_emod hW (by assumption) (by omega)
    · have : p % 2 ^ W = p + 2 ^ W := by
        rw [← Int.add_emod_right, Int.emod_eq_of_lt (by omega) (by omega)]
      rw [this, smax_wrap_of hW (by omega) (by omega)]
  by_cases hln : l < 0 <;> by_cases hrn : r < 0
  · -- both negative
    simp only [hln, hrn, decide_true, Bool.xor_self, Bool.false_eq_true, if_false, if_true]
    rw [if_neg (by omega)]
    have hnl : (-l) % 2 ^ W = -l := Int.emod_eq_of_lt (by omega) (by omega)
    have hnr : (-r) % 2 ^ W = -r := Int.emod_eq_of_lt (by omega) (by omega)
    have hq := quot_test (M := 2 ^ W) (a := -l) (b := -r) (by omega) (by omega) hMpos
    rw [Int.neg_mul_neg] at hq
    have hpos : 0 < l * r := Int.mul_pos_of_neg_of_neg hln hrn
    simp only [hnl, hnr]
    by_cases hlt : l * r < 2 ^ W
    · rw [if_pos (hq.mpr hlt), Int.emod_eq_of_lt (by omega) hlt, if_pos (by omega)]
    · rw [if_neg (fun h => hlt (hq.mp h)), if_neg (by omega), if_neg (by omega)]
  · -- l < 0 ≤ r
    simp only [hln, hrn, decide_true, decide_false, Bool.xor_false, if_true]
    rw [if_neg (by omega)]
    by_cases hr0 : r = 0
    · subst hr0
      simp only [Int.mul_zero, Int.zero_emod]
      rw [if_neg (by omega), smax_wrap_of hW (by omega) (by omega), if_pos (by omega)]
    · rw [if_pos (by omega)]
      have hnl : (-l) % 2 ^ W = -l := Int.emod_eq_of_lt (by omega) (by omega)
      have hrr : r % 2 ^ W = r := Int.emod_eq_of_lt (by omega) (by omega)
      have hq := quot_test (M := 2 ^ W) (a := r) (b := -l) (by omega) (by omega) hMpos
      have e : r * -l = -(l * r) := by rw [Int.mul_neg, Int.mul_comm]
      rw [e] at hq
      have hneg : l * r < 0 := Int.mul_neg_of_neg_of_pos hln (by omega)
      simp only [hnl, hrr]
      by_cases hlt : -(l * r) < 2 ^ W
      · rw [if_pos (hq.mpr hlt), wrapneg _ (by omega) hneg]
        by_cases hge : -(2 ^ (W - 1)) ≤ l * r
        · rw [if_pos hge, if_pos (by omega)]
        · rw [if_neg hge, if_neg (by omega), if_pos (by omega)]
      · rw [if_neg (fun h => hlt (hq.mp h)), if_neg (by omega), if_neg (by omega)]
  · -- r < 0 ≤ l
    simp only [hln, hrn, decide_true, decide_false, Bool.false_xor, if_true]
    by_cases hl0 : l = 0
    · subst hl0
      simp only [Int.zero_mul, Int.zero_emod]
      rw [if_neg (by omega), if_neg (by omega), smax_wrap_of hW (by omega) (by omega), if_pos (by omega)]
    · rw [if_pos (by omega)]
      have hnr : (-r) % 2 ^ W = -r := Int.emod_eq_of_lt (by omega) (by omega)
      have hll : l % 2 ^ W = l := Int.emod_eq_of_lt (by omega) (by omega)
      have hq := quot_test (M := 2 ^ W) (a := l) (b := -r) (by omega) (by omega) hMpos
      have e : l * -r = -(l * r) := by rw [Int.mul_neg]
      rw [e] at hq
      have hneg : l * r < 0 := Int.mul_neg_of_pos_of_neg (by omega) hrn
      simp only [hnr, hll]
      by_cases hlt : -(l * r) < 2 ^ W
      · rw [if_pos (hq.mpr hlt), wrapneg _ (by omega) hneg]
        by_cases hge : -(2 ^ (W - 1)) ≤ l * r
        · rw [if_pos hge, if_pos (by omega)]
        · rw [if_neg hge, if_neg (by omega), if_pos (by omega)]
      · rw [if_neg (fun h => hlt (hq.mp h)), if_neg (by omega), if_neg (by omega)]
  · -- both non-negative
    simp only [hln, hrn, decide_false, Bool.xor_self, Bool.false_eq_true, if_false]
    have hll : l % 2 ^ W = l := Int.emod_eq_of_lt (by omega) (by omega)
    have hrr : r % 2 ^ W = r := Int.emod_eq_of_lt (by omega) (by omega)
    have hnn : 0 ≤ l * r := Int.mul_nonneg (by omega) (by omega)
    simp only [hll, hrr]
    by_cases hl0 : l = 0
    · subst hl0
      simp only [Int.zero_mul, Int.zero_emod]
      rw [if_neg (by omega), if_pos (by omega)]
    · rw [if_pos (by omega)]
      have hq := quot_test (M := 2 ^ W) (a := l) (b := r) (by omega) (by omega) hMpos
      by_cases hlt : l * r < 2 ^ W
      · rw [if_pos (hq.mpr hlt), Int.emod_eq_of_lt hnn hlt, if_pos (by omega)]
      · rw [if_neg (fun h => hlt (hq.mp h)), if_neg (by omega), if_neg (by omega)]

/-- The four corner products bound every product. -/
theorem corner_bounds {al ah bl bh x y : Int} (hx : al ≤ x ∧ x ≤ ah) (hy : bl ≤ y ∧ y ≤ bh) :
    min (min (min (al * bl) (al * bh)) (ah * bl)) (ah * bh) ≤ x * y ∧
    x * y ≤ max (max (max (al * bl) (al * bh)) (ah * bl)) (ah * bh) := by
  -- x*y is between al*y and ah*y, each of which is between its corners
  have hlin : ∀ c d e z : Int, d ≤ z → z ≤ e → min (c * d) (c * e) ≤ c * z ∧ c * z ≤ max (c * d) (c * e) := by
    intro c d e z h1 h2
    by_cases hc : 0 ≤ c
    · have := Int.mul_le_mul_of_nonneg_left h1 hc
      have := Int.mul_le_mul_of_nonneg_left h2 hc
      omega
    · have := Int.mul_le_mul_of_nonpos_left (by omega : c ≤ 0) h1
      have := Int.mul_le_mul_of_nonpos_left (by omega : c ≤ 0) h2
      omega
  have a1 := hlin al bl bh y hy.1 hy.2
  have a2 := hlin ah bl bh y hy.1 hy.2
  have a3 := hlin y al ah x hx.1 hx.2
  rw [Int.mul_comm y al, Int.mul_comm y ah, Int.mul_comm y x] at a3
  omega

theorem rep_min (hW : 64 ≤ W) {a b : Int} (ha : Rep W a) (hb : Rep W b) : Rep W (min a b) := by
  unfold Rep at *; omega

theorem rep_max (hW : 64 ≤ W) {a b : Int} (ha : Rep W a) (hb : Rep W b) : Rep W (max a b) := by
  unfold Rep at *; omega

/-- The exact range of the products of two ranges. -/
def mulRange (a b : Rng) : Rng :=
  ⟨min (min (min (a.lo * b.lo) (a.lo * b.hi)) (a.hi * b.lo)) (a.hi * b.hi),
   max (max (max (a.lo * b.lo) (a.lo * b.hi)) (a.hi * b.lo)) (a.hi * b.hi)⟩

theorem mulTy_eq (hW : 64 ≤ W) {a b : Rng} (ha : a.Wf W) (hb : b.Wf W)
    (hlo : -(2 ^ (W - 1)) ≤ (mulRange a b).lo) :
    mulTy W a b = mkInteger W (mulRange a b).lo (mulRange a b).hi := by
  have ⟨h1, h2⟩ := pow_facts hW
  have ra := ha.rep hW
  have rb := hb.rep hW
  have hlo0 := hlo
  unfold mulRange at hlo
  simp only at hlo
  unfold mulTy
  rw [saferMul_eq hW ra.1 rb.1, saferMul_eq hW ra.1 rb.2, saferMul_eq hW ra.2 rb.1,
    saferMul_eq hW ra.2 rb.2]
  by_cases hhi : (mulRange a b).hi < 2 ^ W
  · unfold mulRange at hhi
    simp only at hhi
    have r0 : Rep W (a.lo * b.lo) := by unfold Rep; omega
    have r1 : Rep W (a.lo * b.hi) := by unfold Rep; omega
    have r2 : Rep W (a.hi * b.lo) := by unfold Rep; omega
    have r3 : Rep W (a.hi * b.hi) := by unfold Rep; omega
    rw [if_pos r0, if_pos r1, if_pos r2, if_pos r3]
    simp only [Option.bind_eq_bind, Option.bind_some]
    rw [safeMin_eq hW r0 r1, safeMin_eq hW (rep_min hW r0 r1) r2,
      safeMin_eq hW (rep_min hW (rep_min hW r0 r1) r2) r3,
      safeMax_eq hW r0 r1, safeMax_eq hW (rep_max hW r0 r1) r2,
      safeMax_eq hW (rep_max hW (rep_max hW r0 r1) r2) r3]
    rfl
  · have hno : ¬ Rep W (mulRange a b).hi := by unfold Rep; omega
    have rhs : mkInteger W (mulRange a b).lo (mulRange a b).hi = none := by
      unfold mkInteger; rw [if_neg (fun h => hno h.2.1)]
    rw [rhs]
    unfold mulRange at hhi
    simp only at hhi
    have key : ∀ p : Int, -(2 ^ (W - 1)) ≤ p →
        (if Rep W p then some p else if -(2 ^ W) < p ∧ p < 0 then some (p + 2 ^ W) else none) =
        if p < 2 ^ W then some p else none := by
      intro p hp
      by_cases hlt : p < 2 ^ W
      · rw [if_pos ⟨hp, hlt⟩, if_pos hlt]
      · rw [if_neg (by unfold Rep; omega), if_neg (by omega), if_neg hlt]
    rw [key _ (by omega), key _ (by omega), key _ (by omega), key _ (by omega)]
    by_cases g0 : a.lo * b.lo < 2 ^ W
    · by_cases g1 : a.lo * b.hi < 2 ^ W
      · by_cases g2 : a.hi * b.lo < 2 ^ W
        · have g3 : ¬ a.hi * b.hi < 2 ^ W := by omega
          rw [if_pos g0, if_pos g1, if_pos g2, if_neg g3]; rfl
        · rw [if_pos g0, if_pos g1, if_neg g2]; rfl
      · rw [if_pos g0, if_neg g1]; rfl
    · rw [if_neg g0]; rfl

theorem mul_value (hW : 64 ≤ W) {a b : BInt} {r : Rng} (ha : a.rng.Wf W) (hb : b.rng.Wf W)
    (hlo : -(2 ^ (W - 1)) ≤ (mulRange a.rng b.rng).lo)
    (hr : mulTy W a.rng b.rng = some r) {x y : Int} (hx : a.value = .ok x) (hy : b.value = .ok y) :
    ∃ c, mul W a b = some (.ok c) ∧ c.rng = r ∧ c.value = .ok (x * y) ∧
      r = mulRange a.rng b.rng ∧ r.Wf W := by
  have mx := value_mem hx ((wf_iff hW _).mp ha).1
  have my := value_mem hy ((wf_iff hW _).mp hb).1
  have hr' := hr
  rw [mulTy_eq hW ha hb hlo] at hr'
  have hwf := wf_of_mk hW hr'
  have hs := mkInteger_some hW hr'
  unfold mul
  rw [hr]
  simp only [Option.bind_eq_bind, Option.bind_some, Option.pure_def, hx, hy, Res.ok_bind, Res.pure_def]
  refine ⟨_, rfl, rfl, ?_, hs.1, hwf⟩
  rw [unchecked_wrap r (under_spec hW hwf).1.1]
  apply unchecked_value hW hwf
  · rw [hs.1]; unfold Rng.Mem at *
    exact corner_bounds mx my
  · simp [umax_wrap, mul_emod_emod]

/-! ## Typed `safe_min` / `safe_max` -/

/-- source/bounded/safe_extreme.cpp 17-23 with explicit static types; the result
is the result type and value. -/
def safeMinT (W : Nat) (L R : CTy) (l r : Int) : CTy × Int :=
  let t := if !L.signed ∧ !R.signed then umax W else smax W
  (t, if (safeCompare W L R l r).isLE then t.wrap l else t.wrap r)

/-- source/bounded/safe_extreme.cpp 32-38 with explicit static types. -/
def safeMaxT (W : Nat) (L R : CTy) (l r : Int) : CTy × Int :=
  let t := if L.signed ∧ R.signed then smax W else umax W
  (t, if (safeCompare W L R l r) = .gt then t.wrap l else t.wrap r)

theorem safeMinT_val (hW : 64 ≤ W) {L R : CTy} (hL : Ty W L) (hR : Ty W R) {l r : Int}
    (hl : L.Fits l) (hr : R.Fits r) :
    (safeMinT W L R l r).2 = min l r ∧ (safeMinT W L R l r).1.Fits (min l r) := by
  have ⟨h1, h2⟩ := pow_facts hW
  have bL := ty_bounds hW hL
  have bR := ty_bounds hW hR
  unfold CTy.Fits at hl hr
  have suff : (safeMinT W L R l r).1.Fits (min l r) := by
    unfold safeMinT
    cases hs : L.signed <;> cases hs' : R.signed <;>
      simp [CTy.Fits, umax, smax, CTy.lo, CTy.hi] <;> simp [hs, hs'] at bL bR <;> omega
  refine ⟨?_, suff⟩
  unfold safeMinT at *
  rw [safeCompare_eq hW hL hR hl hr, isLE_compare]
  simp only at suff ⊢
  generalize ht : (if !L.signed ∧ !R.signed then umax W else smax W) = t at *
  have hb : 1 ≤ t.bits := by rw [← ht]; split <;> simp [umax, smax] <;> omega
  by_cases hle : l ≤ r
  · have : min l r = l := by omega
    rw [this] at suff ⊢
    simp [hle, CTy.wrap_of_fits hb suff]
  · have : min l r = r := by omega
    rw [this] at suff ⊢
    simp [hle, CTy.wrap_of_fits hb suff]

theorem safeMaxT_val (hW : 64 ≤ W) {L R : CTy} (hL : Ty W L) (hR : Ty W R) {l r : Int}
    (hl : L.Fits l) (hr : R.Fits r) :
    (safeMaxT W L R l r).2 = max l r ∧ (safeMaxT W L R l r).1.Fits (max l r) := by
  have ⟨h1, h2⟩ := pow_facts hW
  have bL := ty_bounds hW hL
  have bR := ty_bounds hW hR
  unfold CTy.Fits at hl hr
  have suff : (safeMaxT W L R l r).1.Fits (max l r) := by
    unfold safeMaxT
    cases hs : L.signed <;> cases hs' : R.signed <;>
      simp [CTy.Fits, umax, smax, CTy.lo, CTy.hi] <;> simp [hs, hs'] at bL bR <;> omega
  refine ⟨?_, suff⟩
  unfold safeMaxT at *
  rw [safeCompare_eq hW hL hR hl hr]
  simp only [Int.compare_eq_gt] at suff ⊢
  generalize ht : (if L.signed ∧ R.signed then smax W else umax W) = t at *
  have hb : 1 ≤ t.bits := by rw [← ht]; split <;> simp [umax, smax] <;> omega
  by_cases hle : l > r
  · have : max l r = l := by omega
    rw [this] at suff ⊢
    simp [hle, CTy.wrap_of_fits hb suff]
  · have : max l r = r := by omega
    rw [this] at suff ⊢
    simp [hle, CTy.wrap_of_fits hb suff]

end
end Verif.Bounded
