import Verif.Base.CInt
import Mathlib.Tactic.NormNum

/-!
# `bounded::integer`: ranges, storage, comparison

`W` is the width of `numeric_traits::max_signed_t` / `max_unsigned_t` (128 when
`NUMERIC_TRAITS_HAS_INT128`, otherwise 64). Every definition is parametric in it.
-/

namespace Verif.Bounded

open Verif

/-- `numeric_traits::max_signed_t`. -/
def smax (W : Nat) : CTy := ⟨true, W⟩
/-- `numeric_traits::max_unsigned_t`. -/
def umax (W : Nat) : CTy := ⟨false, W⟩
/-- `int` (32 bits on every platform the library supports). -/
def intTy : CTy := ⟨true, 32⟩

/-- source/bounded/safe_compare.cpp 22-33 `safe_compare(LHS, RHS)`. When the
signedness agrees the built-in `<=>` after the usual arithmetic conversions is
value preserving, so it is the order of the values. -/
def safeCompare (W : Nat) (L R : CTy) (l r : Int) : Ordering :=
  if L.signed = R.signed then compare l r
  else if L.hi ≤ (smax W).hi ∧ R.hi ≤ (smax W).hi then
    compare ((smax W).wrap l) ((smax W).wrap r)
  else if L.signed then (if l < 0 then .lt else compare (R.wrap l) r)
  else (if r < 0 then .gt else compare l (L.wrap r))

/-- source/bounded/safe_equal.cpp 22-35 `safe_equal(LHS, RHS)`. The
`static_assert`s on lines 29 and 32 are not modelled. -/
def safeEqual (W : Nat) (L R : CTy) (l r : Int) : Bool :=
  if L.signed = R.signed then l = r
  else if L.hi ≤ (smax W).hi ∧ R.hi ≤ (smax W).hi then
    (smax W).wrap l = (smax W).wrap r
  else if L.signed then (0 ≤ l ∧ R.wrap l = r)
  else (0 ≤ r ∧ l = L.wrap r)

/-- source/bounded/normalize.cpp 36-41 `fits_in_int`, for a value of type `t`. -/
def fitsInInt (t : CTy) (v : Int) : Bool :=
  if v < 0 then t.wrap intTy.lo ≤ v else v ≤ t.wrap intTy.hi

/-- source/bounded/normalize.cpp 32-34 `must_use_unsigned`. -/
def mustUseUnsigned (W : Nat) (v : Int) : Bool :=
  0 < v ∧ (umax W).wrap v > (umax W).wrap (smax W).hi

/-- source/bounded/normalize.cpp 43-48: the type of `normalize<value>` for a
value of type `t` (`+value` is integer promotion). -/
def normalizeTy (W : Nat) (t : CTy) (v : Int) : CTy :=
  if fitsInInt t.promote v then intTy
  else if mustUseUnsigned W v then umax W
  else smax W

/-- source/bounded/normalize.cpp 43-48: the value of `normalize<value>`. -/
def normalizeVal (W : Nat) (t : CTy) (v : Int) : Int := (normalizeTy W t v).wrap v

/-- A template argument of `integer` in normal form has type `normTy W v`
(normalize.cpp 43-48 applied to the widest type that holds it). -/
def normTy (W : Nat) (v : Int) : CTy :=
  if intTy.Fits v then intTy else if (smax W).hi < v then umax W else smax W

/-- source/bounded/value_fits_in_type.cpp 14-19 `value_fits_in_type<T>(value)` for
a value of type `tv`; `builtin_min_value<T>` is normalised. -/
def valueFitsInType (W : Nat) (T tv : CTy) (v : Int) : Bool :=
  (safeCompare W (normTy W T.lo) tv T.lo v).isLE && (safeCompare W tv (normTy W T.hi) v T.hi).isLE

/-- The candidate list of source/bounded/underlying_type_t.cpp 27-58, in order,
for an LP64 platform; the last two entries exist only with 128-bit integers. -/
def candidates (W : Nat) : List CTy :=
  [⟨true, 8⟩, ⟨false, 8⟩, ⟨true, 16⟩, ⟨false, 16⟩, ⟨false, 32⟩, ⟨true, 32⟩,
   ⟨false, 64⟩, ⟨true, 64⟩, ⟨false, 64⟩, ⟨true, 64⟩] ++
  (if 64 < W then [⟨false, W⟩, ⟨true, W⟩] else [])

/-- source/bounded/underlying_type_t.cpp 20-61 `determine_type`: the first
candidate that holds both bounds, `none` when the static_assert fires. -/
def determineType (W : Nat) (lo hi : Int) : Option CTy :=
  (candidates W).find? fun t =>
    valueFitsInType W t (normTy W lo) lo && valueFitsInType W t (normTy W hi) hi

/-- The template arguments of `integer<lo, hi>`. -/
structure Rng where
  lo : Int
  hi : Int
  deriving Repr, DecidableEq

/-- `v` is one of the values of `integer<lo, hi>`. -/
abbrev Rng.Mem (r : Rng) (v : Int) : Prop := r.lo ≤ v ∧ v ≤ r.hi

/-- `v` is representable in the widest signed or unsigned type, so it can be a
non-type template argument of built-in integer type. -/
abbrev Rep (W : Nat) (v : Int) : Prop := -(2 ^ (W - 1)) ≤ v ∧ v < 2 ^ W

/-- source/bounded/integer.cpp 160-166: naming the type `integer<lo, hi>`
compiles iff the bounds are values of built-in types (`Rep`), `lo <= hi`
(static_assert line 164) and a storage type exists. -/
def mkInteger (W : Nat) (lo hi : Int) : Option Rng :=
  if Rep W lo ∧ Rep W hi ∧ (safeCompare W (normTy W lo) (normTy W hi) lo hi).isLE ∧ (determineType W lo hi).isSome
  then some ⟨lo, hi⟩ else none

/-- `r` names an instantiable `integer` type. -/
abbrev Rng.Wf (W : Nat) (r : Rng) : Prop := mkInteger W r.lo r.hi = some r

/-- `integer<lo, hi>::underlying_type` (integer.cpp 122, 166). The default is
irrelevant: it is only used for types that do not compile. -/
def Rng.under (W : Nat) (r : Rng) : CTy := (determineType W r.lo r.hi).getD ⟨true, 8⟩

/-- An object of type `integer<lo, hi>`: its type and the stored representation
(`m_value`). For `lo = hi` the object is empty (integer.cpp 118-158) and `rep` is
ignored. -/
structure BInt where
  rng : Rng
  rep : Int
  deriving Repr, DecidableEq

/-- source/bounded/integer.cpp 124-126 (constant) and 168-171: reading the value;
`[[assume(minimum <= m_value and m_value <= maximum)]]` makes an out of range
representation undefined behaviour. -/
def BInt.value (b : BInt) : Res Int :=
  if b.rng.lo = b.rng.hi then .ok b.rng.lo
  else if b.rng.Mem b.rep then .ok b.rep else .ub

/-- source/bounded/integer.cpp 132-133 and 177-180: the `unchecked` constructor
(also the converting constructor 182-186): `m_value(underlying_type(other))`. -/
def Rng.unchecked (W : Nat) (r : Rng) (v : Int) : BInt := ⟨r, (r.under W).wrap v⟩

/-- source/bounded/bounded_by_range.cpp 17-21 `overlapping_integer`. -/
def Rng.overlaps (W : Nat) (T : Rng) (r : Rng) : Bool :=
  (safeCompare W (normTy W T.lo) (normTy W r.hi) T.lo r.hi).isLE &&
  (safeCompare W (normTy W r.lo) (normTy W T.hi) r.lo T.hi).isLE

/-- source/bounded/bounded_by_range.cpp 23-28 `bounded_by_range`. -/
def Rng.boundedBy (W : Nat) (T : Rng) (r : Rng) : Bool :=
  T.overlaps W r &&
  (safeCompare W (normTy W r.lo) (normTy W T.lo) r.lo T.lo).isLE &&
  (safeCompare W (normTy W T.hi) (normTy W r.hi) T.hi r.hi).isLE

/-- source/bounded/integer.cpp 182-186: implicit conversion between bounded
integers; `none` when the constraint rejects it. -/
def convert (W : Nat) (r : Rng) (b : BInt) : Option (Res BInt) :=
  if b.rng.boundedBy W r then some (do return r.unchecked W (← b.value)) else none

/-- source/bounded/safe_extreme.cpp 17-23 `safe_min` of two normalised values. -/
def safeMin (W : Nat) (l r : Int) : Int :=
  let t := if !(normTy W l).signed ∧ !(normTy W r).signed then umax W else smax W
  if (safeCompare W (normTy W l) (normTy W r) l r).isLE then t.wrap l else t.wrap r

/-- source/bounded/safe_extreme.cpp 32-38 `safe_max` of two normalised values. -/
def safeMax (W : Nat) (l r : Int) : Int :=
  let t := if (normTy W l).signed ∧ (normTy W r).signed then smax W else umax W
  if (safeCompare W (normTy W l) (normTy W r) l r) = .gt then t.wrap l else t.wrap r

/-- source/bounded/integer.cpp 61-73 `std::common_type`. -/
def commonType (W : Nat) (a b : Rng) : Option Rng :=
  mkInteger W (safeMin W a.lo b.lo) (safeMax W a.hi b.hi)

/-- source/bounded/comparison.cpp 17-30 `operator<=>`. -/
def compareB (W : Nat) (a b : BInt) : Res Ordering :=
  if safeCompare W (normTy W a.rng.lo) (normTy W b.rng.hi) a.rng.lo b.rng.hi = .gt then .ok .gt
  else if safeCompare W (normTy W a.rng.hi) (normTy W b.rng.lo) a.rng.hi b.rng.lo = .lt then .ok .lt
  else do
    let x ← a.value
    let y ← b.value
    return safeCompare W (a.rng.under W) (b.rng.under W) x y

/-- source/bounded/comparison.cpp 32-43 `operator==`. -/
def equalB (W : Nat) (a b : BInt) : Res Bool :=
  if safeCompare W (normTy W a.rng.lo) (normTy W b.rng.hi) a.rng.lo b.rng.hi = .gt ∨
     safeCompare W (normTy W a.rng.hi) (normTy W b.rng.lo) a.rng.hi b.rng.lo = .lt then .ok false
  else do
    let x ← a.value
    let y ← b.value
    return safeEqual W (a.rng.under W) (b.rng.under W) x y

/-! ## Basic facts -/

section Facts
variable {W : Nat}

theorem pow_facts (hW : 64 ≤ W) :
    (2 : Int) ^ W = 2 * 2 ^ (W - 1) ∧ (9223372036854775808 : Int) ≤ 2 ^ (W - 1) := by
  refine ⟨CTy.two_pow_pred (by omega), ?_⟩
  have := CTy.two_pow_le (m := 63) (n := W - 1) (by omega)
  norm_num at this ⊢
  exact this

theorem normTy_fits (hW : 64 ≤ W) {v : Int} (h : Rep W v) : (normTy W v).Fits v := by
  have ⟨h1, h2⟩ := pow_facts hW
  unfold normTy
  split
  · assumption
  · split
    · rename_i h4
      simp [smax, CTy.hi, umax, CTy.Fits, CTy.lo, Rep] at *
      omega
    · rename_i h4
      simp [smax, CTy.hi, umax, CTy.Fits, CTy.lo, Rep] at *
      omega

/-- The signed type of a mixed comparison must not be wider than `max_signed_t`;
all types of the platform satisfy this. -/
abbrev Ty (W : Nat) (t : CTy) : Prop := 1 ≤ t.bits ∧ t.bits ≤ W

theorem ty_bounds (hW : 64 ≤ W) {t : CTy} (ht : Ty W t) :
    -(2 ^ (W - 1)) ≤ t.lo ∧ t.hi < 2 ^ W ∧ (t.signed = true → t.hi < 2 ^ (W - 1)) ∧
      (t.signed = false → t.lo = 0) ∧ t.lo ≤ 0 ∧ 0 ≤ t.hi := by
  have ⟨h1, h2⟩ := pow_facts hW
  have h3 := CTy.two_pow_le (m := t.bits) (n := W) ht.2
  have h4 := CTy.two_pow_le (m := t.bits - 1) (n := W - 1) (by have := ht.2; omega)
  have h5 := CTy.two_pow_pos (t.bits - 1)
  have h6 := CTy.two_pow_pos (t.bits)
  unfold CTy.lo CTy.hi
  cases t.signed <;> simp <;> omega

theorem safeCompare_eq (hW : 64 ≤ W) {L R : CTy} (hL : Ty W L) (hR : Ty W R) {l r : Int}
    (hl : L.Fits l) (hr : R.Fits r) : safeCompare W L R l r = compare l r := by
  have ⟨h1, h2⟩ := pow_facts hW
  have bL := ty_bounds hW hL
  have bR := ty_bounds hW hR
  have hs : (smax W).hi = 2 ^ (W - 1) - 1 := rfl
  have fitS : ∀ v : Int, -(2 ^ (W - 1)) ≤ v → v ≤ 2 ^ (W - 1) - 1 → (smax W).wrap v = v := by
    intro v a b
    exact CTy.wrap_of_fits (t := smax W) (by show 1 ≤ W; omega) ⟨a, b⟩
  unfold CTy.Fits at hl hr
  unfold safeCompare
  split
  · rfl
  · rename_i hne
    split
    · rename_i hh
      rw [fitS l (by omega) (by omega), fitS r (by omega) (by omega)]
    · rename_i hh
      split
      · rename_i hLs
        have hRs : R.signed = false := by cases h : R.signed <;> simp_all
        have := bR.2.2.2.1 hRs
        split
        · symm; rw [Int.compare_eq_lt]; omega
        · rw [CTy.wrap_of_fits hR.1 ⟨by omega, by have := bL.2.2.1 hLs; omega⟩]
      · rename_i hLs
        have hLs : L.signed = false := by simpa using hLs
        have hRs : R.signed = true := by cases h : R.signed <;> simp_all
        have := bL.2.2.2.1 hLs
        split
        · symm; rw [Int.compare_eq_gt]; omega
        · rw [CTy.wrap_of_fits hL.1 ⟨by omega, by have := bR.2.2.1 hRs; omega⟩]

theorem safeEqual_eq (hW : 64 ≤ W) {L R : CTy} (hL : Ty W L) (hR : Ty W R) {l r : Int}
    (hl : L.Fits l) (hr : R.Fits r) : safeEqual W L R l r = decide (l = r) := by
  have ⟨h1, h2⟩ := pow_facts hW
  have bL := ty_bounds hW hL
  have bR := ty_bounds hW hR
  have hs : (smax W).hi = 2 ^ (W - 1) - 1 := rfl
  have fitS : ∀ v : Int, -(2 ^ (W - 1)) ≤ v → v ≤ 2 ^ (W - 1) - 1 → (smax W).wrap v = v := by
    intro v a b
    exact CTy.wrap_of_fits (t := smax W) (by show 1 ≤ W; omega) ⟨a, b⟩
  unfold CTy.Fits at hl hr
  unfold safeEqual
  split
  · rfl
  · rename_i hne
    split
    · rename_i hh
      rw [fitS l (by omega) (by omega), fitS r (by omega) (by omega)]
    · rename_i hh
      split
      · rename_i hLs
        have hRs : R.signed = false := by cases h : R.signed <;> simp_all
        have := bR.2.2.2.1 hRs
        by_cases h0 : 0 ≤ l
        · rw [CTy.wrap_of_fits hR.1 ⟨by omega, by have := bL.2.2.1 hLs; omega⟩]; simp [h0]
        · simp [h0]; omega
      · rename_i hLs
        have hLs : L.signed = false := by simpa using hLs
        have hRs : R.signed = true := by cases h : R.signed <;> simp_all
        have := bL.2.2.2.1 hLs
        by_cases h0 : 0 ≤ r
        · rw [CTy.wrap_of_fits hL.1 ⟨by omega, by have := bR.2.2.1 hRs; omega⟩]; simp [h0]
        · simp [h0]; omega

theorem normTy_ty (hW : 64 ≤ W) (v : Int) : Ty W (normTy W v) := by
  unfold normTy Ty
  split
  · simp [intTy]; omega
  · split <;> simp [smax, umax] <;> omega

/-- On template arguments `safe_compare` is the mathematical comparison. -/
theorem safeCompare_norm (hW : 64 ≤ W) {l r : Int} (hl : Rep W l) (hr : Rep W r) :
    safeCompare W (normTy W l) (normTy W r) l r = compare l r :=
  safeCompare_eq hW (normTy_ty hW l) (normTy_ty hW r) (normTy_fits hW hl) (normTy_fits hW hr)

theorem isLE_compare (l r : Int) : (compare l r).isLE = decide (l ≤ r) := by
  rw [Bool.eq_iff_iff]
  simp [Int.isLE_compare]

theorem ty_rep (hW : 64 ≤ W) {t : CTy} (ht : Ty W t) : Rep W t.lo ∧ Rep W t.hi := by
  have ⟨h1, h2⟩ := pow_facts hW
  have b := ty_bounds hW ht
  unfold Rep
  omega

theorem valueFitsInType_eq (hW : 64 ≤ W) {T : CTy} (hT : Ty W T) {v : Int} (hv : Rep W v) :
    valueFitsInType W T (normTy W v) v = decide (T.Fits v) := by
  have := ty_rep hW hT
  unfold valueFitsInType CTy.Fits
  rw [safeCompare_norm hW this.1 hv, safeCompare_norm hW hv this.2]
  rw [Bool.eq_iff_iff]
  simp [isLE_compare]

theorem candidates_ty (hW : 64 ≤ W) {t : CTy} (ht : t ∈ candidates W) : Ty W t := by
  unfold candidates at ht
  unfold Ty
  split at ht <;> simp at ht <;> rcases ht with h | h | h | h | h | h | h | h | h | h | h | h <;>
    (try subst h) <;> (try simp) <;> omega

theorem safeMin_eq (hW : 64 ≤ W) {l r : Int} (hl : Rep W l) (hr : Rep W r) :
    safeMin W l r = min l r := by
  have ⟨h1, h2⟩ := pow_facts hW
  have key : ∀ v : Int, Rep W v → (v < 2 ^ (W - 1)) → (smax W).wrap v = v := fun v h h' =>
    CTy.wrap_of_fits (t := smax W) (by show 1 ≤ W; omega)
      ⟨by simpa [smax, CTy.lo] using h.1, by simp [smax, CTy.hi]; omega⟩
  have keyu : ∀ v : Int, Rep W v → 0 ≤ v → (umax W).wrap v = v := fun v h h' =>
    CTy.wrap_of_fits (t := umax W) (by show 1 ≤ W; omega)
      ⟨by simpa [umax, CTy.lo] using h', by simp [umax, CTy.hi]; have := h.2; omega⟩
  have uns : ∀ v : Int, Rep W v → (normTy W v).signed = false → 2 ^ (W - 1) ≤ v := by
    intro v h hs
    unfold normTy at hs
    split at hs
    · simp [intTy] at hs
    · split at hs
      · simp [smax, CTy.hi] at *; omega
      · simp [smax] at hs
  have sgn : ∀ v : Int, Rep W v → (normTy W v).signed = true → v < 2 ^ (W - 1) := by
    intro v h hs
    unfold normTy at hs
    split at hs
    · rename_i h; simp [intTy, CTy.Fits, CTy.hi] at h; omega
    · split at hs
      · simp [umax] at hs
      · simp [smax, CTy.hi] at *; omega
  unfold safeMin
  rw [safeCompare_norm hW hl hr, isLE_compare]
  cases hsl : (normTy W l).signed <;> cases hsr : (normTy W r).signed <;> simp <;> split
  · rw [keyu l hl (by have := uns l hl hsl; omega)]; omega
  · rw [keyu r hr (by have := uns r hr hsr; omega)]; omega
  · rw [key l hl (by have := sgn r hr hsr; omega)]; omega
  · rw [key r hr (sgn r hr hsr)]; omega
  · rw [key l hl (sgn l hl hsl)]; omega
  · rw [key r hr (by have := sgn l hl hsl; omega)]; omega
  · rw [key l hl (sgn l hl hsl)]; omega
  · rw [key r hr (sgn r hr hsr)]; omega

theorem safeMax_eq (hW : 64 ≤ W) {l r : Int} (hl : Rep W l) (hr : Rep W r) :
    safeMax W l r = max l r := by
  have ⟨h1, h2⟩ := pow_facts hW
  have key : ∀ v : Int, Rep W v → (v < 2 ^ (W - 1)) → (smax W).wrap v = v := fun v h h' =>
    CTy.wrap_of_fits (t := smax W) (by show 1 ≤ W; omega)
      ⟨by simpa [smax, CTy.lo] using h.1, by simp [smax, CTy.hi]; omega⟩
  have keyu : ∀ v : Int, Rep W v → 0 ≤ v → (umax W).wrap v = v := fun v h h' =>
    CTy.wrap_of_fits (t := umax W) (by show 1 ≤ W; omega)
      ⟨by simpa [umax, CTy.lo] using h', by simp [umax, CTy.hi]; have := h.2; omega⟩
  have uns : ∀ v : Int, Rep W v → (normTy W v).signed = false → 2 ^ (W - 1) ≤ v := by
    intro v h hs
    unfold normTy at hs
    split at hs
    · simp [intTy] at hs
    · split at hs
      · simp [smax, CTy.hi] at *; omega
      · simp [smax] at hs
  have sgn : ∀ v : Int, Rep W v → (normTy W v).signed = true → v < 2 ^ (W - 1) := by
    intro v h hs
    unfold normTy at hs
    split at hs
    · rename_i h; simp [intTy, CTy.Fits, CTy.hi] at h; omega
    · split at hs
      · simp [umax] at hs
      · simp [smax, CTy.hi] at *; omega
  unfold safeMax
  rw [safeCompare_norm hW hl hr]
  simp only [Int.compare_eq_gt]
  cases hsl : (normTy W l).signed <;> cases hsr : (normTy W r).signed <;> simp <;> split
  · rw [keyu l hl (by have := uns l hl hsl; omega)]; omega
  · rw [keyu r hr (by have := uns r hr hsr; omega)]; omega
  · rw [keyu l hl (by have := uns l hl hsl; omega)]; omega
  · rw [keyu r hr (by have := uns l hl hsl; omega)]; omega
  · rw [keyu l hl (by have := uns r hr hsr; omega)]; omega
  · rw [keyu r hr (by have := uns r hr hsr; omega)]; omega
  · rw [key l hl (sgn l hl hsl)]; omega
  · rw [key r hr (sgn r hr hsr)]; omega

/-- All values of `[lo, hi]` fit the widest unsigned type, or all fit the widest
signed type. -/
abbrev Storable (W : Nat) (lo hi : Int) : Prop :=
  (0 ≤ lo ∧ hi < 2 ^ W) ∨ (-(2 ^ (W - 1)) ≤ lo ∧ hi < 2 ^ (W - 1))

theorem determineType_spec (hW : 64 ≤ W) {lo hi : Int} (hl : Rep W lo) (hh : Rep W hi) {t : CTy}
    (h : determineType W lo hi = some t) :
    t ∈ candidates W ∧ Ty W t ∧ t.Fits lo ∧ t.Fits hi := by
  unfold determineType at h
  have hm := List.mem_of_find?_eq_some h
  have hp := List.find?_some h
  have ht := candidates_ty hW hm
  simp only [valueFitsInType_eq hW ht hl, valueFitsInType_eq hW ht hh, Bool.and_eq_true,
    decide_eq_true_eq] at hp
  exact ⟨hm, ht, hp.1, hp.2⟩

theorem determineType_first (hW : 64 ≤ W) {lo hi : Int} (hl : Rep W lo) (hh : Rep W hi) :
    determineType W lo hi = (candidates W).find? fun t => decide (t.Fits lo ∧ t.Fits hi) := by
  unfold determineType
  have : ∀ l : List CTy, (∀ t ∈ l, t ∈ candidates W) →
      (l.find? fun t =>
        valueFitsInType W t (normTy W lo) lo && valueFitsInType W t (normTy W hi) hi) =
      l.find? fun t => decide (t.Fits lo ∧ t.Fits hi) := by
    intro l hl'
    induction l with
    | nil => rfl
    | cons a l ih =>
      have ha := candidates_ty hW (hl' a (by simp))
      rw [List.find?_cons, List.find?_cons, ih (fun t ht => hl' t (by simp [ht])),
        valueFitsInType_eq hW ha hl, valueFitsInType_eq hW ha hh]
      by_cases h1 : a.Fits lo <;> by_cases h2 : a.Fits hi <;> simp [h1, h2]
  exact this _ (fun _ h => h)

theorem determineType_isSome (hW : 64 ≤ W) {lo hi : Int} (hl : Rep W lo) (hh : Rep W hi)
    (hle : lo ≤ hi) : (determineType W lo hi).isSome ↔ Storable W lo hi := by
  have ⟨h1, h2⟩ := pow_facts hW
  constructor
  · intro h
    obtain ⟨t, ht⟩ := Option.isSome_iff_exists.mp h
    obtain ⟨_, hty, hf1, hf2⟩ := determineType_spec hW hl hh ht
    have b := ty_bounds hW hty
    unfold CTy.Fits at hf1 hf2
    unfold Storable
    cases hs : t.signed
    · left; have := b.2.2.2.1 hs; omega
    · right; have := b.2.2.1 hs; omega
  · intro h
    rw [determineType_first hW hl hh, List.find?_isSome]
    simp only [decide_eq_true_eq]
    have hmemu : umax W ∈ candidates W := by
      unfold candidates umax
      by_cases hw : 64 < W
      · simp [hw]
      · have : W = 64 := by omega
        subst this; simp
    have hmems : smax W ∈ candidates W := by
      unfold candidates smax
      by_cases hw : 64 < W
      · simp [hw]
      · have : W = 64 := by omega
        subst this; simp
    rcases h with h | h
    · refine ⟨umax W, hmemu, ?_⟩
      simp [CTy.Fits, umax, CTy.lo, CTy.hi]; omega
    · refine ⟨smax W, hmems, ?_⟩
      simp [CTy.Fits, smax, CTy.lo, CTy.hi]; omega

theorem Storable.rep (hW : 64 ≤ W) {lo hi : Int} (hle : lo ≤ hi) (h : Storable W lo hi) :
    Rep W lo ∧ Rep W hi := by
  have ⟨h1, h2⟩ := pow_facts hW
  unfold Storable at h; unfold Rep; omega

/-- The type `integer<lo, hi>` compiles exactly when `lo ≤ hi` and the whole range
fits one of the two widest types. -/
theorem mkInteger_eq (hW : 64 ≤ W) (lo hi : Int) :
    mkInteger W lo hi = if lo ≤ hi ∧ Storable W lo hi then some ⟨lo, hi⟩ else none := by
  unfold mkInteger
  by_cases h : lo ≤ hi ∧ Storable W lo hi
  · have hr := h.2.rep hW h.1
    rw [if_pos h, if_pos]
    refine ⟨hr.1, hr.2, ?_, (determineType_isSome hW hr.1 hr.2 h.1).mpr h.2⟩
    rw [safeCompare_norm hW hr.1 hr.2, isLE_compare]; simpa using h.1
  · rw [if_neg h, if_neg]
    rintro ⟨h1, h2, h3, h4⟩
    rw [safeCompare_norm hW h1 h2, isLE_compare] at h3
    have h3 : lo ≤ hi := by simpa using h3
    exact h ⟨h3, (determineType_isSome hW h1 h2 h3).mp h4⟩

theorem mkInteger_some (hW : 64 ≤ W) {lo hi : Int} {r : Rng} (h : mkInteger W lo hi = some r) :
    r = ⟨lo, hi⟩ ∧ lo ≤ hi ∧ Storable W lo hi := by
  rw [mkInteger_eq hW] at h
  split at h
  · rename_i h'; simp at h; exact ⟨h.symm, h'⟩
  · simp at h

theorem wf_iff (hW : 64 ≤ W) (r : Rng) : r.Wf W ↔ r.lo ≤ r.hi ∧ Storable W r.lo r.hi := by
  unfold Rng.Wf
  rw [mkInteger_eq hW]
  split <;> simp_all

theorem wf_of_mk (hW : 64 ≤ W) {lo hi : Int} {r : Rng} (h : mkInteger W lo hi = some r) :
    r.Wf W := by
  have := mkInteger_some hW h
  rw [this.1, wf_iff hW]
  exact this.2

theorem Rng.Wf.rep (hW : 64 ≤ W) {r : Rng} (h : r.Wf W) : Rep W r.lo ∧ Rep W r.hi := by
  rw [wf_iff hW] at h
  exact h.2.rep hW h.1

theorem under_spec (hW : 64 ≤ W) {r : Rng} (h : r.Wf W) :
    Ty W (r.under W) ∧ ∀ v, r.Mem v → (r.under W).Fits v := by
  have hr := h.rep hW
  rw [wf_iff hW] at h
  have hs := (determineType_isSome hW hr.1 hr.2 h.1).mpr h.2
  obtain ⟨t, ht⟩ := Option.isSome_iff_exists.mp hs
  have := determineType_spec hW hr.1 hr.2 ht
  have hu : r.under W = t := by unfold Rng.under; rw [ht]; rfl
  rw [hu]
  refine ⟨this.2.1, fun v hv => ?_⟩
  have := this.2.2
  unfold CTy.Fits Rng.Mem at *
  omega

/-- Storing any intermediate value that is congruent modulo `2^W` to an in-range
mathematical value and reading it back gives the mathematical value. -/
theorem unchecked_value (hW : 64 ≤ W) {r : Rng} (h : r.Wf W) {i v : Int} (hv : r.Mem v)
    (hc : i % 2 ^ W = v % 2 ^ W) : (r.unchecked W i).value = .ok v := by
  have ⟨ht, hf⟩ := under_spec hW h
  unfold Rng.unchecked BInt.value
  rw [CTy.wrap_of_congr ht.1 ht.2 hc (hf v hv)]
  unfold Rng.Mem at *
  simp only
  split
  · congr 1; omega
  · rfl

/-- A readable object holds a value of its range. -/
theorem value_mem {b : BInt} {v : Int} (h : b.value = .ok v) (hle : b.rng.lo ≤ b.rng.hi) :
    b.rng.Mem v := by
  unfold BInt.value at h
  unfold Rng.Mem at *
  split at h
  · simp at h; omega
  · split at h
    · simp at h; subst h; assumption
    · simp at h

end Facts
end Verif.Bounded
