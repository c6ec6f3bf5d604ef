import Mathlib.Tactic.Linarith
import Verif.Bounded.Shift

/-!
# For which types the operators are exact (C02, C05, C07, C08)

The theorems of these properties have conditions, as the operators accept types for which they are wrong. Here the conditions are complete:
the operator is exact for all values of two types if and only if the types satisfy the condition.
-/

namespace Verif.Bounded

open Verif

/-- Whatever two objects of the types `A` and `B` hold, the operator compiles and gives the value that `f` demands, inside of the declared range. -/
def ExactFor (W : Nat) (op : BInt → BInt → Option (Res BInt)) (f : Int → Int → Int) (A B : Rng) : Prop :=
  ∀ a b x y, Holds W a x → Holds W b y → a.rng = A → b.rng = B → ∃ r, Yields (op a b) r (f x y)

variable {W : Nat}

theorem exactFor_at (hW : 64 ≤ W) {op : BInt → BInt → Option (Res BInt)} {f : Int → Int → Int} {A B : Rng} (h : ExactFor W op f A B) (hA : A.Wf W)
    (hB : B.Wf W) {x y : Int} (hx : A.Mem x) (hy : B.Mem y) : ∃ r, Yields (op (A.unchecked W x) (B.unchecked W y)) r (f x y) :=
  h _ _ x y (holds_of_mem hW hA hx).1 (holds_of_mem hW hB hy).1 rfl rfl

theorem lo_mem (hW : 64 ≤ W) {A : Rng} (hA : A.Wf W) : A.Mem A.lo := ⟨le_rfl, ((wf_iff hW _).mp hA).1⟩

theorem hi_mem (hW : 64 ≤ W) {A : Rng} (hA : A.Wf W) : A.Mem A.hi := ⟨((wf_iff hW _).mp hA).1, le_rfl⟩

/-! ## Multiplication -/

/-- **C02**: `a * b` is exact for all values of two types if and only if it compiles and no product of bounds is below the least value of the widest
signed type. -/
theorem C02_mul_types (hW : 64 ≤ W) {A B : Rng} (hA : A.Wf W) (hB : B.Wf W) :
    ExactFor W (mul W) (· * ·) A B ↔ mulTy W A B ≠ none ∧ ∀ p ∈ [A.lo * B.lo, A.lo * B.hi, A.hi * B.lo, A.hi * B.hi], -(2 ^ (W - 1)) ≤ p := by
  have key : ∀ x y, A.Mem x → B.Mem y → ExactFor W (mul W) (· * ·) A B → mulTy W A B ≠ none ∧ -(2 ^ (W - 1)) ≤ x * y := by
    intro x y hx hy h
    obtain ⟨r, c, hc, hr, hv, h1, h2⟩ := exactFor_at hW h hA hB hx hy
    unfold mul at hc
    simp only [Option.bind_eq_bind, Option.bind_eq_some_iff, Option.pure_def, Option.some.injEq] at hc
    obtain ⟨r', hr', hc⟩ := hc
    refine ⟨by rw [show mulTy W A B = some r' from hr']; simp, ?_⟩
    have hwf : r'.Wf W := by
      unfold mulTy at hr'
      simp only [Option.bind_eq_bind, Option.bind_eq_some_iff] at hr'
      obtain ⟨_, _, _, _, _, _, _, _, hr'⟩ := hr'
      exact wf_of_mk hW hr'
    have : c.rng = r' := by
      rw [(holds_of_mem hW hA hx).1.2, (holds_of_mem hW hB hy).1.2] at hc
      simp only [Res.ok_bind] at hc
      cases hc
      rfl
    rw [← this, hr] at hwf
    have := (hwf.rep hW).1
    unfold Rep at this
    omega
  constructor
  · intro h
    have := key _ _ (lo_mem hW hA) (lo_mem hW hB) h
    have := key _ _ (lo_mem hW hA) (hi_mem hW hB) h
    have := key _ _ (hi_mem hW hA) (lo_mem hW hB) h
    have := key _ _ (hi_mem hW hA) (hi_mem hW hB) h
    refine ⟨by tauto, ?_⟩
    simp only [List.mem_cons, List.not_mem_nil, or_false]
    rintro p (rfl | rfl | rfl | rfl) <;> omega
  · rintro ⟨h1, h2⟩ a b x y ha hb rfl rfl
    obtain ⟨r, hr, _⟩ := C02_mul_exact_partial hW ha hb (by
      unfold mul
      cases e : mulTy W a.rng b.rng with
      | none => exact absurd e h1
      | some r => simp) h2
    exact ⟨r, hr⟩

example : ExactFor 128 (mul 128) (· * ·) ⟨-5, 10⟩ ⟨-3, 255⟩ := (C02_mul_types (by decide) (by decide +kernel) (by decide +kernel)).2 (by decide +kernel)
example : ¬ ExactFor 128 (mul 128) (· * ·) ⟨2 ^ 127 - 2, 2 ^ 127 - 1⟩ ⟨-2, -2⟩ :=
  (C02_mul_types (by decide) (by decide +kernel) (by decide +kernel)).not.2 (by decide +kernel)

/-! ## Bitwise and -/

theorem land_neg {x y : Int} (hx : x < 0) (hy : y < 0) : x.land y < 0 := by
  cases x with
  | ofNat n => exact absurd hx (Int.not_lt.2 (Int.natCast_nonneg n))
  | negSucc n => cases y with
    | ofNat m => exact absurd hy (Int.not_lt.2 (Int.natCast_nonneg m))
    | negSucc m => exact Int.negSucc_lt_zero _

theorem land_nonneg_left {x y : Int} (hx : 0 ≤ x) : 0 ≤ x.land y ∧ x.land y ≤ x := by
  cases x with
  | negSucc n => omega
  | ofNat n => cases y with
    | ofNat m => exact ⟨Int.natCast_nonneg _, Int.ofNat_le.2 Nat.and_le_left⟩
    | negSucc m =>
      refine ⟨Int.natCast_nonneg _, Int.ofNat_le.2 ?_⟩
      show Nat.ldiff n m ≤ n
      have : Nat.ldiff n m = n &&& Nat.ldiff n m := by
        apply Nat.eq_of_testBit_eq
        intro i
        rw [Nat.testBit_and, Nat.testBit_ldiff]
        cases n.testBit i <;> simp
      rw [this]
      exact Nat.and_le_left

theorem land_comm' (x y : Int) : x.land y = y.land x := by
  cases x with
  | ofNat n => cases y with
    | ofNat m => exact congrArg Int.ofNat (Nat.and_comm n m)
    | negSucc m => rfl
  | negSucc n => cases y with
    | ofNat m => rfl
    | negSucc m => exact congrArg Int.negSucc (Nat.or_comm n m)

theorem land_neg_one (x : Int) : x.land (-1) = x := by
  cases x with
  | ofNat n =>
    refine congrArg Int.ofNat (show Nat.ldiff n 0 = n from Nat.eq_of_testBit_eq fun i => ?_)
    rw [Nat.testBit_ldiff]
    simp
  | negSucc n => exact congrArg Int.negSucc (Nat.or_zero n)

/-- The result of `a & b` is exact, or it cannot be used (or it is another value), depending on whether the exact value is in the declared range. -/
theorem C08_and_values (hW : 64 ≤ W) {a b : BInt} {x y : Int} (ha : Holds W a x) (hb : Holds W b y) (hc : bitAnd W a b ≠ none) :
    (∃ r, Yields (bitAnd W a b) r (x.land y)) ↔ 0 ≤ x.land y ∧ x.land y ≤ min a.rng.hi b.rng.hi := by
  have la := ((wf_iff hW _).mp ha.1).1
  have lb := ((wf_iff hW _).mp hb.1).1
  have mx := value_mem ha.2 la
  have my := value_mem hb.2 lb
  cases hr : bitAndTy W a.rng b.rng with
  | none => exact absurd (by unfold bitAnd; rw [hr]; rfl) hc
  | some p =>
    obtain ⟨r, t⟩ := p
    have hr' := hr
    unfold bitAndTy at hr'
    simp only [Option.bind_eq_bind, Option.bind_eq_some_iff, Option.pure_def, Option.some.injEq, Prod.mk.injEq] at hr'
    obtain ⟨r', hmk, c, hcc, rfl, rfl⟩ := hr'
    have hs := mkInteger_some hW hmk
    have hwf := wf_of_mk hW hmk
    have hf := common_fits hW ha.1 hb.1 hwf hcc
    have e : bitAnd W a b = some (.ok (r'.unchecked W (x.land y))) := by
      unfold bitAnd
      rw [hr]
      simp only [Option.bind_eq_bind, Option.bind_some, Option.pure_def, ha.2, hb.2, Res.ok_bind]
      rw [CTy.wrap_of_fits hf.1 (hf.2 _ (Or.inl mx)), CTy.wrap_of_fits hf.1 (hf.2 _ (Or.inr (Or.inl my)))]
      rfl
    constructor
    · rintro ⟨r, c, h1, h2, h3, h4, h5⟩
      rw [e] at h1
      simp only [Option.some.injEq, Res.ok.injEq] at h1
      rw [← h1] at h2
      have : r = r' := h2.symm
      rw [this, hs.1] at h4 h5
      exact ⟨h4, h5⟩
    · intro h
      exact ⟨r', yields_of hW ⟨_, e, rfl, unchecked_value hW hwf (by rw [hs.1]; exact h) rfl⟩ hwf⟩

/-- **C08**: `a & b` is exact for all values of two types if and only if it compiles and either both types have no negative values, or one of them
has none and its greatest value is not greater than that of the other. -/
theorem C08_and_types (hW : 64 ≤ W) {A B : Rng} (hA : A.Wf W) (hB : B.Wf W) :
    ExactFor W (bitAnd W) Int.land A B ↔ bitAndTy W A B ≠ none ∧
      ((0 ≤ A.lo ∧ 0 ≤ B.lo) ∨ (0 ≤ A.lo ∧ A.hi ≤ B.hi) ∨ (0 ≤ B.lo ∧ B.hi ≤ A.hi)) := by
  have wa := (wf_iff hW _).mp hA
  have wb := (wf_iff hW _).mp hB
  have ty : ∀ a b : BInt, a.rng = A → b.rng = B → (bitAnd W a b ≠ none ↔ bitAndTy W A B ≠ none) := by
    rintro a b rfl rfl
    unfold bitAnd
    cases bitAndTy W a.rng b.rng <;> simp
  constructor
  · intro h
    have comp : bitAndTy W A B ≠ none := by
      obtain ⟨r, c, hc, _⟩ := exactFor_at hW h hA hB (lo_mem hW hA) (lo_mem hW hB)
      exact (ty _ _ rfl rfl).1 (by rw [hc]; simp)
    have at' : ∀ x y, A.Mem x → B.Mem y → 0 ≤ x.land y ∧ x.land y ≤ min A.hi B.hi := fun x y hx hy =>
      (C08_and_values hW (holds_of_mem hW hA hx).1 (holds_of_mem hW hB hy).1 ((ty _ _ rfl rfl).2 comp)).1 (exactFor_at hW h hA hB hx hy)
    refine ⟨comp, ?_⟩
    have hmin : 0 ≤ min A.hi B.hi := le_trans (at' _ _ (lo_mem hW hA) (lo_mem hW hB)).1 (at' _ _ (lo_mem hW hA) (lo_mem hW hB)).2
    by_cases ha : 0 ≤ A.lo
    · by_cases hb : 0 ≤ B.lo
      · exact .inl ⟨ha, hb⟩
      · have := (at' A.hi (-1) (hi_mem hW hA) ⟨by omega, by omega⟩).2
        rw [land_neg_one] at this
        exact .inr (.inl ⟨ha, by omega⟩)
    · by_cases hb : 0 ≤ B.lo
      · have := (at' (-1) B.hi ⟨by omega, by omega⟩ (hi_mem hW hB)).2
        rw [land_comm', land_neg_one] at this
        exact .inr (.inr ⟨hb, by omega⟩)
      · have := (at' _ _ (lo_mem hW hA) (lo_mem hW hB)).1
        have := land_neg (x := A.lo) (y := B.lo) (by omega) (by omega)
        omega
  · rintro ⟨h1, h2⟩ a b x y ha hb rfl rfl
    refine (C08_and_values hW ha hb ((ty _ _ rfl rfl).2 h1)).2 ?_
    have mx := value_mem ha.2 wa.1
    have my := value_mem hb.2 wb.1
    unfold Rng.Mem at mx my
    have hx : 0 ≤ x → 0 ≤ x.land y ∧ x.land y ≤ x := land_nonneg_left
    have hy : 0 ≤ y → 0 ≤ x.land y ∧ x.land y ≤ y := by rw [land_comm']; exact land_nonneg_left
    omega

example : ExactFor 128 (bitAnd 128) Int.land ⟨0, 100⟩ ⟨-3, 1000⟩ :=
  (C08_and_types (by decide) (by decide +kernel) (by decide +kernel)).2 (by decide +kernel)
example : ¬ ExactFor 128 (bitAnd 128) Int.land ⟨0, 100⟩ ⟨-3, 10⟩ :=
  (C08_and_types (by decide) (by decide +kernel) (by decide +kernel)).not.2 (by decide +kernel)

/-! ## The type that values of several types are converted to -/

/-- All values of a range fit a signed type of `n + 1` bits. -/
def Within (n : Nat) (r : Rng) : Prop := -(2 ^ n) ≤ r.lo ∧ r.hi < 2 ^ n

/-- All values of a range fit one of the built-in types of `n` bits. -/
def FitsBits (n : Nat) (r : Rng) : Prop := Within (n - 1) r ∨ (0 ≤ r.lo ∧ r.hi < 2 ^ n)

instance : Decidable (Within n r) := by unfold Within; infer_instance
instance : Decidable (FitsBits n r) := by unfold FitsBits; infer_instance

/-- The number of bits of the built-in type, at least `int`, in which a value of a range takes part in an expression. -/
def width (W : Nat) (r : Rng) : Nat := if FitsBits 32 r then 32 else if FitsBits 64 r then 64 else W

/-- The built-in types of at most 32 bits among which the storage type is chosen (see `Rng.under`). -/
def candidates32 : List CTy := [⟨true, 8⟩, ⟨false, 8⟩, ⟨true, 16⟩, ⟨false, 16⟩, ⟨false, 32⟩, ⟨true, 32⟩]
/-- Those of 64 bits. -/
def candidates64 : List CTy := [⟨false, 64⟩, ⟨true, 64⟩, ⟨false, 64⟩, ⟨true, 64⟩]

theorem under_promote (hW : 64 ≤ W) {c : Rng} (hc : c.Wf W) :
    (c.under W).promote.bits = width W c ∧ (c.lo < 0 → (c.under W).promote.signed = true) := by
  have hr := hc.rep hW
  have hs := (wf_iff hW _).mp hc
  have hso := (determineType_isSome hW hr.1 hr.2 hs.1).mpr hs.2
  obtain ⟨t, ht⟩ := Option.isSome_iff_exists.mp hso
  have hspec := determineType_spec hW hr.1 hr.2 ht
  have hu : c.under W = t := by unfold Rng.under; rw [ht]; rfl
  rw [hu]
  constructor
  · rw [determineType_first hW hr.1 hr.2] at ht
    have split3 : candidates W = candidates32 ++ (candidates64 ++ (if 64 < W then [⟨false, W⟩, ⟨true, W⟩] else [])) := rfl
    rw [split3, List.find?_append] at ht
    unfold width
    cases e32 : candidates32.find? fun t => decide (t.Fits c.lo ∧ t.Fits c.hi) with
    | some u =>
      rw [e32, Option.some_or, Option.some.injEq] at ht
      subst ht
      have hm := List.mem_of_find?_eq_some e32
      have hp := List.find?_some e32
      rw [decide_eq_true_eq] at hp
      have h1 := hs.1
      clear e32 hspec hu hso hr hs split3 hc
      obtain ⟨lo, hi⟩ := c
      rw [if_pos]
      · simp only [candidates32, List.mem_cons, List.not_mem_nil, or_false] at hm
        rcases hm with rfl | rfl | rfl | rfl | rfl | rfl <;> rfl
      · unfold FitsBits Within
        simp only [candidates32, List.mem_cons, List.not_mem_nil, or_false] at hm
        rcases hm with rfl | rfl | rfl | rfl | rfl | rfl <;> simp [CTy.Fits, CTy.lo, CTy.hi] at hp ⊢ <;> omega
    | none =>
      rw [e32, Option.none_or, List.find?_append] at ht
      rw [List.find?_eq_none] at e32
      rw [if_neg]
      · cases e64 : candidates64.find? fun t => decide (t.Fits c.lo ∧ t.Fits c.hi) with
        | some u =>
          rw [e64, Option.some_or, Option.some.injEq] at ht
          subst ht
          have hm := List.mem_of_find?_eq_some e64
          have hp := List.find?_some e64
          rw [decide_eq_true_eq] at hp
          have h1 := hs.1
          clear e64 e32 hspec hu hso hr hs split3 hc
          obtain ⟨lo, hi⟩ := c
          rw [if_pos]
          · simp only [candidates64, List.mem_cons, List.not_mem_nil, or_false] at hm
            rcases hm with rfl | rfl | rfl | rfl <;> rfl
          · unfold FitsBits Within
            simp only [candidates64, List.mem_cons, List.not_mem_nil, or_false] at hm
            rcases hm with rfl | rfl | rfl | rfl <;> simp [CTy.Fits, CTy.lo, CTy.hi] at hp ⊢ <;> omega
        | none =>
          rw [e64, Option.none_or] at ht
          rw [List.find?_eq_none] at e64
          rw [if_neg]
          · have hm := List.mem_of_find?_eq_some ht
            split at hm
            · simp only [List.mem_cons, List.not_mem_nil, or_false] at hm
              rcases hm with rfl | rfl
              · unfold CTy.promote; rw [if_neg (show ¬ W < 32 by omega)]
              · unfold CTy.promote; rw [if_neg (show ¬ W < 32 by omega)]
            · simp at hm
          · intro hf
            have h1 := e64 ⟨true, 64⟩ (by decide)
            have h2 := e64 ⟨false, 64⟩ (by decide)
            have h3 := hs.1
            unfold FitsBits Within at hf
            simp [CTy.Fits, CTy.lo, CTy.hi] at h1 h2 hf
            omega
      · intro hf
        have h1 := e32 ⟨true, 32⟩ (by decide)
        have h2 := e32 ⟨false, 32⟩ (by decide)
        have h3 := hs.1
        unfold FitsBits Within at hf
        simp [CTy.Fits, CTy.lo, CTy.hi] at h1 h2 hf
        omega
  · intro hn
    have : t.signed = true := by
      by_contra h
      have := hspec.2.2.1.1
      unfold CTy.lo at this
      rw [if_neg h] at this
      omega
    unfold CTy.promote
    split
    · rfl
    · exact this

/-! ## Left shift -/

theorem shlTy_some (hW : 64 ≤ W) {A B r : Rng} {t : CTy} (hA : A.Wf W) (hB : B.Wf W) (h : shlTy W A B = some (r, t)) :
    0 ≤ B.lo ∧ B.hi < W ∧ r = ⟨(smax W).wrap ((smax W).wrap A.lo * 2 ^ B.lo.toNat), (smax W).wrap ((smax W).wrap A.hi * 2 ^ B.hi.toNat)⟩ ∧ r.Wf W ∧
      ∃ c, commonType3 W r A B = some c ∧ t = c.under W := by
  unfold shlTy at h
  simp only [Option.bind_eq_bind, Option.bind_eq_some_iff, Option.pure_def, Option.some.injEq, Prod.mk.injEq] at h
  obtain ⟨lo, hlo, hi, hhi, r', hr, c, hc, rfl, rfl⟩ := h
  have h1 := constEval_some hlo
  have h2 := constEval_some hhi
  unfold CTy.shl at h1 h2
  split at h1
  · split at h2
    · rename_i g1 g2
      simp only [Res.ok.injEq] at h1 h2
      exact ⟨g1.1, g2.2, by rw [h1, h2]; exact (mkInteger_some hW hr).1, wf_of_mk hW hr, c, hc, rfl⟩
    · cases h2
  · cases h1

/-- The result of `a << b` is exact if and only if the exact value is in the declared range and the count is less than the number of bits of the type
in which the operands are shifted. -/
theorem shl_values (hW : 64 ≤ W) {a b : BInt} {x y : Int} (ha : Holds W a x) (hb : Holds W b y) {r : Rng} {t : CTy}
    (h : shlTy W a.rng b.rng = some (r, t)) :
    (∃ r, Yields (shl W a b) r (x * 2 ^ y.toNat)) ↔ y < t.promote.bits ∧ r.Mem (x * 2 ^ y.toNat) := by
  have la := ((wf_iff hW _).mp ha.1).1
  have lb := ((wf_iff hW _).mp hb.1).1
  have mx := value_mem ha.2 la
  have my := value_mem hb.2 lb
  obtain ⟨b0, bW, hr, hwf, c, hcc, rfl⟩ := shlTy_some hW ha.1 hb.1 h
  have hf := common_fits hW ha.1 hb.1 hwf hcc
  have y0 : 0 ≤ y := le_trans b0 my.1
  have e : shl W a b = some ((c.under W).promote.shl x y >>= fun q => .ok (r.unchecked W q)) := by
    unfold shl
    rw [h]
    simp only [Option.bind_eq_bind, Option.bind_some, Option.pure_def, ha.2, hb.2, Res.ok_bind]
    rw [CTy.wrap_of_fits hf.1 (hf.2 _ (Or.inl mx)), CTy.wrap_of_fits hf.1 (hf.2 _ (Or.inr (Or.inl my)))]
    rfl
  rw [e]
  unfold CTy.shl
  by_cases hy : y < (c.under W).promote.bits
  · rw [if_pos ⟨y0, hy⟩, Res.ok_bind]
    constructor
    · rintro ⟨r', d, h1, h2, h3, h4, h5⟩
      simp only [Option.some.injEq, Res.ok.injEq] at h1
      rw [← h1] at h2
      have : r = r' := h2
      rw [this]
      exact ⟨hy, h4, h5⟩
    · rintro ⟨_, hm⟩
      have := promote_fits hf.1 (hf.2 _ (Or.inr (Or.inr hm)))
      rw [CTy.wrap_of_fits (by have := promote_bits (c.under W); omega) this]
      exact ⟨r, yields_of hW ⟨_, rfl, rfl, unchecked_value hW hwf hm rfl⟩ hwf⟩
  · rw [if_neg (by omega)]
    constructor
    · rintro ⟨r', d, h1, _⟩
      cases h1
    · exact fun h => absurd h.1 hy

/-- The common type of the result and the operands of an operator has the bits that the left operand needs, if the right operand and the result do not
need more than it or a byte. -/
theorem common_width (hW : 64 ≤ W) {A B r c : Rng} (hA : A.Wf W) (hB : B.Wf W) (hr : r.Wf W) (hc : commonType3 W r A B = some c)
    (b0 : 0 ≤ B.lo) (b1 : B.hi < 128) (r0 : min A.lo 0 ≤ r.lo) (r1 : r.hi ≤ max A.hi 0) : (c.under W).promote.bits = width W A := by
  have h3 := commonType3_some hW hr hA hB hc
  rw [(under_promote hW h3.2).1, h3.1]
  have la := ((wf_iff hW _).mp hA).1
  have lb := ((wf_iff hW _).mp hB).1
  have e : ∀ n, 8 < n → (FitsBits n ⟨min (min r.lo A.lo) B.lo, max (max r.hi A.hi) B.hi⟩ ↔ FitsBits n A) := by
    intro n hn
    unfold FitsBits Within
    have p1 := CTy.two_pow_le (m := 8) (n := n - 1) (by omega)
    have p2 := CTy.two_pow_le (m := n - 1) (n := n) (by omega)
    simp only
    omega
  unfold width
  simp only [e 32 (by decide), e 64 (by decide)]

theorem abs_le_shift {v : Int} {k : Nat} : (0 ≤ v → v ≤ v * 2 ^ k) ∧ (v ≤ 0 → v * 2 ^ k ≤ v) := by
  have := CTy.two_pow_pos k
  constructor <;> intro h <;> nlinarith

/-- **C07**: `a << b` is exact for all values of two types if and only if it compiles, the left operand has no negative values or the count is fixed, the
bounds of the exact results fit the widest signed type, and counts from 32 are not used for a left operand that is always zero. -/
theorem C07_shl_types (hW : 64 ≤ W) (hW2 : W ≤ 128) {A B : Rng} (hA : A.Wf W) (hB : B.Wf W) :
    ExactFor W (shl W) (fun x y => x * 2 ^ y.toNat) A B ↔ shlTy W A B ≠ none ∧ (0 ≤ A.lo ∨ B.lo = B.hi) ∧
      -(2 ^ (W - 1)) ≤ A.lo * 2 ^ B.lo.toNat ∧ A.hi * 2 ^ B.hi.toNat < 2 ^ (W - 1) ∧ (A.lo = 0 → A.hi = 0 → B.hi < 32) := by
  have wa := (wf_iff hW _).mp hA
  have wb := (wf_iff hW _).mp hB
  have ⟨pw1, pw2⟩ := pow_facts hW
  have pl := CTy.two_pow_pos B.lo.toNat
  have ph := CTy.two_pow_pos B.hi.toNat
  have wrapFits : ∀ v : Int, -(2 ^ (W - 1)) ≤ v → v < 2 ^ (W - 1) → (smax W).wrap v = v := fun v h1 h2 =>
    CTy.wrap_of_fits (by show 1 ≤ W; omega) ⟨by rw [smax_lo]; exact h1, by rw [smax_hi]; omega⟩
  cases hty : shlTy W A B with
  | none =>
    simp only [ne_eq, not_true, false_and, iff_false]
    intro h
    obtain ⟨r, c, hc, _⟩ := exactFor_at hW h hA hB (lo_mem hW hA) (lo_mem hW hB)
    unfold shl at hc
    rw [show (A.unchecked W A.lo).rng = A from rfl, show (B.unchecked W B.lo).rng = B from rfl, hty] at hc
    cases hc
  | some p =>
    obtain ⟨r, t⟩ := p
    obtain ⟨b0, bW, hr, hwf, c, hcc, rfl⟩ := shlTy_some hW hA hB hty
    have key : ExactFor W (shl W) (fun x y => x * 2 ^ y.toNat) A B ↔
        ∀ x y, A.Mem x → B.Mem y → y < (c.under W).promote.bits ∧ r.Mem (x * 2 ^ y.toNat) := by
      constructor
      · intro h x y hx hy
        exact (shl_values hW (holds_of_mem hW hA hx).1 (holds_of_mem hW hB hy).1 hty).1 (exactFor_at hW h hA hB hx hy)
      · rintro h a b x y ha hb rfl rfl
        exact (shl_values hW ha hb hty).2 (h x y (value_mem ha.2 wa.1) (value_mem hb.2 wb.1))
    rw [key]
    simp only [ne_eq, reduceCtorEq, not_false_eq_true, true_and]
    constructor
    · intro h
      have ll := (h _ _ (lo_mem hW hA) (lo_mem hW hB)).2
      have lh := (h _ _ (lo_mem hW hA) (hi_mem hW hB)).2
      have hh := h _ _ (hi_mem hW hA) (hi_mem hW hB)
      have f1 := CTy.wrap_fits (t := smax W) (by show 1 ≤ W; omega) ((smax W).wrap A.lo * 2 ^ B.lo.toNat)
      have f2 := CTy.wrap_fits (t := smax W) (by show 1 ≤ W; omega) ((smax W).wrap A.hi * 2 ^ B.hi.toNat)
      unfold CTy.Fits at f1 f2
      rw [smax_lo, smax_hi] at f1 f2
      have hlo : -(2 ^ (W - 1)) ≤ A.lo * 2 ^ B.lo.toNat := by
        have := ll.1; rw [hr] at this; simp only at this; omega
      have hhi : A.hi * 2 ^ B.hi.toNat < 2 ^ (W - 1) := by
        have := hh.2.2; rw [hr] at this; simp only at this; omega
      have hlo2 : A.lo * 2 ^ B.lo.toNat < 2 ^ (W - 1) := by
        have := ll.2; rw [hr] at this; simp only at this; omega
      have s1 := abs_le_shift (v := A.lo) (k := B.lo.toNat)
      have rlo : r.lo = A.lo * 2 ^ B.lo.toNat := by
        have := pw1
        rw [hr]; simp only; rw [wrapFits A.lo (by omega) (by omega), wrapFits _ hlo hlo2]
      refine ⟨?_, hlo, hhi, ?_⟩
      · by_cases h0 : 0 ≤ A.lo
        · exact .inl h0
        · right
          have := lh.1
          rw [rlo] at this
          have hp : (2 : Int) ^ B.hi.toNat ≤ 2 ^ B.lo.toNat := by
            by_contra hcon
            push_neg at hcon
            nlinarith
          by_contra hne
          have hlt : B.lo.toNat < B.hi.toNat := by have := wb.1; omega
          have h2 := CTy.two_pow_le (m := B.lo.toNat + 1) (n := B.hi.toNat) (by omega)
          rw [Int.pow_succ] at h2
          omega
      · intro z1 z2
        have hb := hh.1
        have r1 : r.hi = 0 := by
          rw [hr]; simp only; rw [z2, wrapFits 0 (by have := pw1; omega) (by have := pw1; omega)]
          rw [zero_mul, wrapFits 0 (by have := pw1; omega) (by have := pw1; omega)]
        rw [common_width hW hA hB hwf hcc b0 (by omega) (by rw [rlo, z1]; simp) (by omega)] at hb
        unfold width at hb
        rw [if_pos (by unfold FitsBits Within; omega)] at hb
        exact hb
    · rintro ⟨h1, h2, h3, h4⟩ x y hx hy
      unfold Rng.Mem at hx hy
      have py := CTy.two_pow_pos y.toNat
      have ply := CTy.two_pow_le (m := B.lo.toNat) (n := y.toNat) (by omega)
      have phy := CTy.two_pow_le (m := y.toNat) (n := B.hi.toNat) (by omega)
      have s1 := abs_le_shift (v := A.lo) (k := B.lo.toNat)
      have s2 := abs_le_shift (v := A.hi) (k := B.hi.toNat)
      have s3 := abs_le_shift (v := A.lo) (k := B.hi.toNat)
      have mid : A.lo * 2 ^ B.lo.toNat ≤ x * 2 ^ y.toNat ∧ x * 2 ^ y.toNat ≤ A.hi * 2 ^ B.hi.toNat := by
        rcases h1 with h1 | h1
        · constructor
          · calc A.lo * 2 ^ B.lo.toNat ≤ A.lo * 2 ^ y.toNat := by nlinarith
              _ ≤ x * 2 ^ y.toNat := by nlinarith
          · calc x * 2 ^ y.toNat ≤ A.hi * 2 ^ y.toNat := by nlinarith
              _ ≤ A.hi * 2 ^ B.hi.toNat := by nlinarith
        · have : y = B.lo := by omega
          subst this
          rw [← h1]
          constructor <;> nlinarith
      have hAlo : A.lo < 2 ^ (W - 1) := by
        by_cases h0 : 0 ≤ A.hi
        · have := wa.1; have := s2.1 h0; omega
        · have := wa.1; have := pw1; omega
      have hAhi : -(2 ^ (W - 1)) ≤ A.hi ∧ A.hi < 2 ^ (W - 1) := by
        have := wa.1; have := pw1
        by_cases h0 : 0 ≤ A.hi
        · have := s2.1 h0; omega
        · have := s1.2 (by omega); omega
      have hAlo' : -(2 ^ (W - 1)) ≤ A.lo := by
        have := pw1
        by_cases h0 : 0 ≤ A.lo
        · omega
        · have := s1.2 (by omega); omega
      have hr' : r = ⟨A.lo * 2 ^ B.lo.toNat, A.hi * 2 ^ B.hi.toNat⟩ := by
        rw [hr, wrapFits A.lo hAlo' hAlo, wrapFits A.hi hAhi.1 hAhi.2, wrapFits _ h2 (by omega), wrapFits _ (by omega) h3]
      refine ⟨?_, by rw [hr']; exact mid⟩
      have hf := common_fits hW hA hB hwf hcc
      have pb := promote_bits (c.under W)
      by_cases hpos : 1 ≤ A.hi
      · have fits := promote_fits hf.1 (hf.2 r.hi (.inr (.inr (hi_mem hW hwf))))
        have := lt_of_fits fits
        rw [hr'] at this
        simp only at this
        have : (2 : Int) ^ y.toNat < 2 ^ (c.under W).promote.bits := by nlinarith
        have := exp_lt_of_pow_lt this
        omega
      · by_cases hz : A.lo = 0
        · have := h4 hz (by have := wa.1; omega)
          omega
        · have hneg : A.lo < 0 := by have := wa.1; omega
          have hB' : B.lo = B.hi := by omega
          have fits := promote_fits hf.1 (hf.2 r.lo (.inr (.inr (lo_mem hW hwf))))
          have := fits.1
          rw [hr'] at this
          simp only at this
          unfold CTy.lo at this
          have e : y = B.lo := by omega
          subst e
          split at this
          · have h5 : (2 : Int) ^ B.lo.toNat ≤ 2 ^ ((c.under W).promote.bits - 1) := by nlinarith
            by_contra hcon
            have := CTy.two_pow_le (m := (c.under W).promote.bits) (n := B.lo.toNat) (by omega)
            have := CTy.two_pow_pred (n := (c.under W).promote.bits) (by omega)
            have := CTy.two_pow_pos ((c.under W).promote.bits - 1)
            omega
          · nlinarith

example : ExactFor 128 (shl 128) (fun x y => x * 2 ^ y.toNat) ⟨-7, 100⟩ ⟨5, 5⟩ :=
  (C07_shl_types (by decide) (by decide) (by decide +kernel) (by decide +kernel)).2 (by decide +kernel)
example : ¬ ExactFor 128 (shl 128) (fun x y => x * 2 ^ y.toNat) ⟨-7, 100⟩ ⟨4, 5⟩ :=
  (C07_shl_types (by decide) (by decide) (by decide +kernel) (by decide +kernel)).not.2 (by decide +kernel)

/-! ## Right shift -/

theorem shrTy_some (hW : 64 ≤ W) {A B r : Rng} {t : CTy} (h : shrTy W A B = some (r, t)) :
    0 ≤ B.lo ∧ B.hi < W ∧ r = ⟨(smax W).wrap A.lo / 2 ^ B.hi.toNat, (smax W).wrap A.hi / 2 ^ B.lo.toNat⟩ ∧ r.Wf W ∧
      ∃ c, commonType3 W r A B = some c ∧ t = c.under W := by
  unfold shrTy at h
  simp only [Option.bind_eq_bind, Option.bind_eq_some_iff, Option.pure_def, Option.some.injEq, Prod.mk.injEq] at h
  obtain ⟨lo, hlo, hi, hhi, r', hr, c, hc, rfl, rfl⟩ := h
  have h1 := constEval_some hlo
  have h2 := constEval_some hhi
  unfold CTy.shr at h1 h2
  split at h1
  · split at h2
    · rename_i g1 g2
      simp only [Res.ok.injEq] at h1 h2
      exact ⟨g2.1, g1.2, by rw [h1, h2]; exact (mkInteger_some hW hr).1, wf_of_mk hW hr, c, hc, rfl⟩
    · cases h2
  · cases h1

/-- The result of `a >> b` is exact if and only if the exact value is in the declared range and the count is less than the number of bits of the type
in which the operands are shifted. -/
theorem shr_values (hW : 64 ≤ W) {a b : BInt} {x y : Int} (ha : Holds W a x) (hb : Holds W b y) {r : Rng} {t : CTy}
    (h : shrTy W a.rng b.rng = some (r, t)) :
    (∃ r, Yields (shr W a b) r (x / 2 ^ y.toNat)) ↔ y < t.promote.bits ∧ r.Mem (x / 2 ^ y.toNat) := by
  have la := ((wf_iff hW _).mp ha.1).1
  have lb := ((wf_iff hW _).mp hb.1).1
  have mx := value_mem ha.2 la
  have my := value_mem hb.2 lb
  obtain ⟨b0, bW, hr, hwf, c, hcc, rfl⟩ := shrTy_some hW h
  have hf := common_fits hW ha.1 hb.1 hwf hcc
  have y0 : 0 ≤ y := le_trans b0 my.1
  have e : shr W a b = some ((c.under W).promote.shr x y >>= fun q => .ok (r.unchecked W q)) := by
    unfold shr
    rw [h]
    simp only [Option.bind_eq_bind, Option.bind_some, Option.pure_def, ha.2, hb.2, Res.ok_bind]
    rw [CTy.wrap_of_fits hf.1 (hf.2 _ (Or.inl mx)), CTy.wrap_of_fits hf.1 (hf.2 _ (Or.inr (Or.inl my)))]
    rfl
  rw [e]
  unfold CTy.shr
  by_cases hy : y < (c.under W).promote.bits
  · rw [if_pos ⟨y0, hy⟩, Res.ok_bind]
    constructor
    · rintro ⟨r', d, h1, h2, h3, h4, h5⟩
      simp only [Option.some.injEq, Res.ok.injEq] at h1
      rw [← h1] at h2
      have : r = r' := h2
      rw [this]
      exact ⟨hy, h4, h5⟩
    · rintro ⟨_, hm⟩
      exact ⟨r, yields_of hW ⟨_, rfl, rfl, unchecked_value hW hwf hm rfl⟩ hwf⟩
  · rw [if_neg (by omega)]
    constructor
    · rintro ⟨r', d, h1, _⟩
      cases h1
    · exact fun h => absurd h.1 hy

theorem ediv_pow_mono_neg {a : Int} {m n : Nat} (ha : a ≤ 0) (h : m ≤ n) : a / 2 ^ m ≤ a / 2 ^ n := by
  obtain ⟨k, rfl⟩ := Nat.exists_eq_add_of_le h
  have hm := CTy.two_pow_pos m
  have hk := CTy.two_pow_pos k
  rw [Int.pow_add, ← Int.ediv_ediv_of_nonneg hm.le]
  have hq : a / 2 ^ m ≤ 0 := by
    have := Int.ediv_le_ediv hm ha
    rwa [Int.zero_ediv] at this
  generalize a / 2 ^ m = q at hq
  apply Int.le_ediv_of_mul_le hk
  nlinarith

/-- **C07**: `a >> b` is exact for all values of two types if and only if it compiles, the left operand fits the widest signed type, its negative bounds
shifted by the least and by the greatest count are the same, and every count is less than the number of bits the left operand needs (at least 32). -/
theorem C07_shr_types (hW : 64 ≤ W) (hW2 : W ≤ 128) {A B : Rng} (hA : A.Wf W) (hB : B.Wf W) :
    ExactFor W (shr W) (fun x y => x / 2 ^ y.toNat) A B ↔ shrTy W A B ≠ none ∧ A.hi < 2 ^ (W - 1) ∧
      (A.lo < 0 → A.lo / 2 ^ B.lo.toNat = A.lo / 2 ^ B.hi.toNat) ∧ (A.hi < 0 → A.hi / 2 ^ B.lo.toNat = A.hi / 2 ^ B.hi.toNat) ∧ B.hi < width W A := by
  have wa := (wf_iff hW _).mp hA
  have wb := (wf_iff hW _).mp hB
  have ⟨pw1, pw2⟩ := pow_facts hW
  have repA := hA.rep hW
  unfold Rep at repA
  have pl := CTy.two_pow_pos B.lo.toNat
  have ph := CTy.two_pow_pos B.hi.toNat
  have wrapFits : ∀ v : Int, -(2 ^ (W - 1)) ≤ v → v < 2 ^ (W - 1) → (smax W).wrap v = v := fun v h1 h2 =>
    CTy.wrap_of_fits (by show 1 ≤ W; omega) ⟨by rw [smax_lo]; exact h1, by rw [smax_hi]; omega⟩
  cases hty : shrTy W A B with
  | none =>
    simp only [ne_eq, not_true, false_and, iff_false]
    intro h
    obtain ⟨r, c, hc, _⟩ := exactFor_at hW h hA hB (lo_mem hW hA) (lo_mem hW hB)
    unfold shr at hc
    rw [show (A.unchecked W A.lo).rng = A from rfl, show (B.unchecked W B.lo).rng = B from rfl, hty] at hc
    cases hc
  | some p =>
    obtain ⟨r, t⟩ := p
    obtain ⟨b0, bW, hr, hwf, c, hcc, rfl⟩ := shrTy_some hW hty
    have hlh : B.lo.toNat ≤ B.hi.toNat := by have := wb.1; omega
    have key : ExactFor W (shr W) (fun x y => x / 2 ^ y.toNat) A B ↔
        ∀ x y, A.Mem x → B.Mem y → y < (c.under W).promote.bits ∧ r.Mem (x / 2 ^ y.toNat) := by
      constructor
      · intro h x y hx hy
        exact (shr_values hW (holds_of_mem hW hA hx).1 (holds_of_mem hW hB hy).1 hty).1 (exactFor_at hW h hA hB hx hy)
      · rintro h a b x y ha hb rfl rfl
        exact (shr_values hW ha hb hty).2 (h x y (value_mem ha.2 wa.1) (value_mem hb.2 wb.1))
    have loDiv : ∀ k : Nat, min A.lo 0 ≤ A.lo / 2 ^ k := by
      intro k
      have hk := CTy.two_pow_pos k
      by_cases h0 : 0 ≤ A.lo
      · have := Int.ediv_nonneg h0 hk.le; omega
      · have := ediv_pow_mono_neg (a := A.lo) (m := 0) (n := k) (by omega) (by omega)
        rw [Int.pow_zero, Int.ediv_one] at this
        omega
    have hiDiv : ∀ k : Nat, A.hi / 2 ^ k ≤ max A.hi 0 := by
      intro k
      have hk := CTy.two_pow_pos k
      by_cases h0 : 0 ≤ A.hi
      · have := ediv_pow_anti (a := A.hi) (m := 0) (n := k) h0 (by omega)
        rw [Int.pow_zero, Int.ediv_one] at this
        omega
      · have := Int.ediv_le_ediv (a := A.hi) (b := 0) hk (by omega)
        rw [Int.zero_ediv] at this
        omega
    have bits : A.hi < 2 ^ (W - 1) → r = ⟨A.lo / 2 ^ B.hi.toNat, A.hi / 2 ^ B.lo.toNat⟩ ∧ (c.under W).promote.bits = width W A := by
      intro h
      have e : r = ⟨A.lo / 2 ^ B.hi.toNat, A.hi / 2 ^ B.lo.toNat⟩ := by
        rw [hr, wrapFits A.lo (by omega) (by have := wa.1; omega), wrapFits A.hi (by omega) h]
      refine ⟨e, common_width hW hA hB hwf hcc b0 (by omega) ?_ ?_⟩
      · rw [e]; exact loDiv _
      · rw [e]; exact hiDiv _
    rw [key]
    simp only [ne_eq, reduceCtorEq, not_false_eq_true, true_and]
    constructor
    · intro h
      have hl := (h _ _ (hi_mem hW hA) (lo_mem hW hB)).2
      have hmax : A.hi < 2 ^ (W - 1) := by
        by_contra hcon
        have e : (smax W).wrap A.hi = A.hi - 2 ^ W := by
          rw [show (smax W).wrap A.hi = (smax W).wrap (A.hi - 2 ^ W) by
            apply CTy.wrap_congr
            show A.hi % 2 ^ W = (A.hi - 2 ^ W) % 2 ^ W
            rw [Int.sub_emod, Int.emod_self, Int.sub_zero, Int.emod_emod_of_dvd _ (dvd_refl _)]]
          exact wrapFits _ (by omega) (by omega)
        have h1 := hl.2
        rw [hr, e] at h1
        simp only at h1
        have := Int.ediv_nonneg (a := A.hi) (by omega) pl.le
        have : (A.hi - 2 ^ W) / 2 ^ B.lo.toNat < 0 := Int.ediv_neg_of_neg_of_pos (by omega) pl
        omega
      obtain ⟨er, ew⟩ := bits hmax
      refine ⟨hmax, fun hn => ?_, fun hn => ?_, ?_⟩
      · have h1 := (h _ _ (lo_mem hW hA) (lo_mem hW hB)).2.1
        rw [er] at h1
        simp only at h1
        have := ediv_pow_mono_neg (a := A.lo) (by omega) hlh
        omega
      · have h1 := (h _ _ (hi_mem hW hA) (hi_mem hW hB)).2.2
        rw [er] at h1
        simp only at h1
        have := ediv_pow_mono_neg (a := A.hi) (by omega) hlh
        omega
      · rw [← ew]
        exact (h _ _ (lo_mem hW hA) (hi_mem hW hB)).1
    · rintro ⟨h1, h2, h3, h4⟩ x y hx hy
      obtain ⟨er, ew⟩ := bits h1
      unfold Rng.Mem at hx hy
      have py := CTy.two_pow_pos y.toNat
      refine ⟨by rw [ew]; omega, ?_⟩
      rw [er]
      unfold Rng.Mem
      simp only
      have m1 : A.lo / 2 ^ y.toNat ≤ x / 2 ^ y.toNat := Int.ediv_le_ediv py hx.1
      have m2 : x / 2 ^ y.toNat ≤ A.hi / 2 ^ y.toNat := Int.ediv_le_ediv py hx.2
      constructor
      · by_cases h0 : 0 ≤ A.lo
        · have := ediv_pow_anti (a := A.lo) (m := y.toNat) (n := B.hi.toNat) h0 (by omega)
          omega
        · have := h2 (by omega)
          have := ediv_pow_mono_neg (a := A.lo) (m := B.lo.toNat) (n := y.toNat) (by omega) (by omega)
          omega
      · by_cases h0 : 0 ≤ A.hi
        · have := ediv_pow_anti (a := A.hi) (m := B.lo.toNat) (n := y.toNat) h0 (by omega)
          omega
        · have := h3 (by omega)
          have := ediv_pow_mono_neg (a := A.hi) (m := y.toNat) (n := B.hi.toNat) (by omega) (by omega)
          omega

example : ExactFor 128 (shr 128) (fun x y => x / 2 ^ y.toNat) ⟨-1, 2 ^ 40⟩ ⟨3, 50⟩ :=
  (C07_shr_types (by decide) (by decide) (by decide +kernel) (by decide +kernel)).2 (by decide +kernel)
example : ¬ ExactFor 128 (shr 128) (fun x y => x / 2 ^ y.toNat) ⟨0, 1000⟩ ⟨3, 50⟩ :=
  (C07_shr_types (by decide) (by decide) (by decide +kernel) (by decide +kernel)).not.2 (by decide +kernel)

/-! ## Modulus -/

theorem width_of (hW : 64 ≤ W) {c : Rng} {n : Nat} (hn : n ∈ [31, 63, W - 1]) (h1 : c.lo = -(2 ^ n)) (h2 : c.hi < 2 ^ n) : width W c = n + 1 := by
  have ⟨pw1, pw2⟩ := pow_facts hW
  have f : ∀ m, FitsBits m c → -(2 ^ (m - 1)) ≤ c.lo := by
    intro m h
    have := CTy.two_pow_pos (m - 1)
    unfold FitsBits Within at h
    omega
  have f32 := f 32
  have f64 := f 64
  norm_num at f32 f64
  simp only [List.mem_cons, List.not_mem_nil, or_false] at hn
  unfold width
  rcases hn with rfl | rfl | rfl
  · rw [if_pos (.inl ⟨by omega, by omega⟩)]
  · rw [if_neg (fun h => by have := f32 h; omega), if_pos (.inl ⟨by omega, by omega⟩)]
  · rw [if_neg (fun h => by have := f32 h; omega)]
    by_cases h64 : W = 64
    · subst h64
      rw [if_pos (.inl ⟨by omega, by omega⟩)]
    · have := CTy.two_pow_le (m := 64) (n := W - 1) (by omega)
      norm_num at this
      rw [if_neg (fun h => by have := f64 h; omega)]
      omega

/-- **C05**: which operands make `a % b` undefined: a zero divisor, and the least value of a signed built-in type divided by minus one if that is the
type in which all values of both operands are represented. Everything else is exact. -/
theorem C05_mod_values (hW : 64 ≤ W) {a b : BInt} {x y : Int} (ha : Holds W a x) (hb : Holds W b y) (hc : mod W a b ≠ none) :
    (mod W a b = some .ub ↔ y = 0 ∨ (y = -1 ∧ ∃ n ∈ [31, 63, W - 1], x = -(2 ^ n) ∧ Within n a.rng ∧ Within n b.rng)) ∧
      (mod W a b ≠ some .ub → ∃ r, Yields (mod W a b) r (x.tmod y)) := by
  cases hr : modTy W a.rng b.rng with
  | none => exact absurd (by unfold mod; rw [hr]; rfl) hc
  | some p =>
    obtain ⟨r, t⟩ := p
    have hsome := modTy_some hW ha.1 hb.1 hr
    have ra := ha.1.rep hW
    have rb := hb.1.rep hW
    have la := ((wf_iff hW _).mp ha.1).1
    have lb := ((wf_iff hW _).mp hb.1).1
    have mx := value_mem ha.2 la
    have my := value_mem hb.2 lb
    have fx := hsome.2.2.2 x (Or.inl mx)
    have fy := hsome.2.2.2 y (Or.inr (Or.inl my))
    have hb1 : 1 ≤ t.bits := hsome.2.2.1.1
    have hty : ∃ c, commonType3 W r a.rng b.rng = some c ∧ t = c.under W := by
      unfold modTy at hr
      simp only [Option.bind_eq_bind, Option.bind_eq_some_iff, Option.pure_def, Option.some.injEq, Prod.mk.injEq] at hr
      obtain ⟨p, hp, r', hr', c, hc, rfl, rfl⟩ := hr
      exact ⟨c, hc, rfl⟩
    obtain ⟨c, hcc, htc⟩ := hty
    have e : mod W a b = some (t.promote.mod x y >>= fun q => .ok (r.unchecked W q)) := by
      unfold mod
      rw [hr]
      simp only [Option.bind_eq_bind, Option.bind_some, Option.pure_def, ha.2, hb.2, Res.ok_bind]
      rw [CTy.wrap_of_fits hb1 fx, CTy.wrap_of_fits hb1 fy]
      rfl
    have sub : t.promote.mod x y = .ub ↔ mod W a b = some .ub := by
      rw [e]
      cases t.promote.mod x y <;> simp [bind, Res.bind]
    have hlo : ∀ s : CTy, s.lo ≤ 0 := by
      intro s
      unfold CTy.lo
      have := CTy.two_pow_pos (s.bits - 1)
      split <;> omega
    have hhi : ∀ s : CTy, 0 ≤ s.hi := by
      intro s
      unfold CTy.hi
      have := CTy.two_pow_pos (s.bits - 1)
      have := CTy.two_pow_pos s.bits
      split <;> omega
    have h3 := commonType3_some hW hsome.2.1 ha.1 hb.1 hcc
    obtain ⟨up1, up2⟩ := under_promote hW h3.2
    rw [← htc] at up1 up2
    by_cases hy : y = 0
    · subst hy
      have : mod W a b = some .ub := sub.1 (by unfold CTy.mod; rfl)
      exact ⟨by simp [this], fun h => absurd this h⟩
    · have hm : t.promote.mod x y = .ub ↔ ¬ t.promote.Fits (x.tdiv y) := by
        unfold CTy.mod
        rw [if_neg hy]
        split <;> simp_all
      refine ⟨?_, fun hn => ?_⟩
      · rw [← sub, hm]
        constructor
        · intro hf
          right
          have : t.promote.signed = true ∧ x = t.promote.lo ∧ y = -1 := by
            by_contra hcon
            refine hf (tdiv_fits_of (hlo _) (hhi _) ?_ (promote_fits hb1 fx) (promote_fits hb1 fy) ?_ ?_)
            · intro hs; unfold CTy.hi CTy.lo; rw [hs]; simp
            · intro hs; unfold CTy.lo; rw [hs]; rfl
            · exact fun h1 h2 => hcon ⟨h1, h2⟩
          obtain ⟨hs, hx, hy1⟩ := this
          refine ⟨hy1, t.promote.bits - 1, ?_, ?_, ?_, ?_⟩
          · rw [up1]
            unfold width
            split
            · simp
            · split <;> simp
          · rw [hx]; unfold CTy.lo; rw [if_pos hs]
          · have f1 := promote_fits hb1 (hsome.2.2.2 _ (.inl (lo_mem hW ha.1)))
            have f2 := promote_fits hb1 (hsome.2.2.2 _ (.inl (hi_mem hW ha.1)))
            unfold CTy.Fits CTy.lo CTy.hi at f1 f2
            rw [hs] at f1 f2
            simp only [if_true] at f1 f2
            unfold Within
            omega
          · have f1 := promote_fits hb1 (hsome.2.2.2 _ (.inr (.inl (lo_mem hW hb.1))))
            have f2 := promote_fits hb1 (hsome.2.2.2 _ (.inr (.inl (hi_mem hW hb.1))))
            unfold CTy.Fits CTy.lo CTy.hi at f1 f2
            rw [hs] at f1 f2
            simp only [if_true] at f1 f2
            unfold Within
            omega
        · rintro (h | ⟨rfl, n, hn, hx, wa, wb⟩)
          · exact absurd h hy
          have pn := CTy.two_pow_pos n
          unfold Within at wa wb
          unfold Rng.Mem at mx my
          have hspec := modulusRange_spec hW ra rb la lb (by omega) hsome.1
          have tm : ∀ u v : Int, a.rng.Mem u → v ≠ 0 → -(2 ^ n) ≤ u.tmod v ∧ u.tmod v < 2 ^ n := by
            intro u v hu hv
            unfold Rng.Mem at hu
            have e1 : (u.tmod v).natAbs = u.natAbs % v.natAbs := Int.natAbs_tmod u v
            have e2 := Nat.mod_le u.natAbs v.natAbs
            by_cases hu0 : 0 ≤ u
            · have := Int.tmod_nonneg v hu0
              omega
            · have h1 := Int.tmod_nonneg v (show 0 ≤ -u by omega)
              rw [Int.neg_tmod] at h1
              omega
          obtain ⟨⟨x1, y1, hx1, hy1, hz1, er1⟩, ⟨x2, y2, hx2, hy2, hz2, er2⟩⟩ := hspec.2
          have t1 := tm x1 y1 hx1 hz1
          have t2 := tm x2 y2 hx2 hz2
          rw [er1] at t1
          rw [er2] at t2
          simp only at t1 t2
          have lr := ((wf_iff hW _).mp hsome.2.1).1
          have ec : c.lo = -(2 ^ n) ∧ c.hi < 2 ^ n := by
            rw [h3.1]
            simp only
            omega
          have hbits : t.promote.bits = n + 1 := by
            rw [up1, width_of hW hn ec.1 ec.2]
          have hs := up2 (by omega)
          intro hf
          have := hf.2
          unfold CTy.hi at this
          rw [if_pos hs, hbits, hx] at this
          simp at this
      · have hf : t.promote.Fits (x.tdiv y) := by
          by_contra hcon
          exact hn (sub.1 (hm.2 hcon))
        have hspec := modulusRange_spec hW ra rb la lb (by unfold Rng.Mem at my; omega) hsome.1
        refine ⟨r, yields_of hW ?_ hsome.2.1⟩
        rw [e]
        unfold CTy.mod
        rw [if_neg hy, if_pos hf, Res.ok_bind]
        exact ⟨_, rfl, rfl, unchecked_value hW hsome.2.1 (hspec.1 x y mx my hy) rfl⟩

/-- `INT_MIN % -1` is undefined in `int`, but not if the right operand needs a wider type. -/
example : mod 128 ⟨⟨-(2 ^ 31), 0⟩, -(2 ^ 31)⟩ ⟨⟨-1, -1⟩, 0⟩ = some .ub :=
  (C05_mod_values (a := ⟨⟨-(2 ^ 31), 0⟩, -(2 ^ 31)⟩) (b := ⟨⟨-1, -1⟩, 0⟩) (x := -(2 ^ 31)) (y := -1) (by decide) (by unfold Holds; decide +kernel)
    (by unfold Holds; decide +kernel) (by decide +kernel)).1.2 (.inr ⟨rfl, 31, by simp, rfl, by decide +kernel, by decide +kernel⟩)
example : mod 128 ⟨⟨-(2 ^ 31), 2 ^ 31⟩, -(2 ^ 31)⟩ ⟨⟨-1, -1⟩, 0⟩ = some (.ok ⟨⟨0, 0⟩, 0⟩) := by decide +kernel

end Verif.Bounded
