import Verif.Bounded.Mod
import Verif.Bounded.ArithProps

/-!
# Properties C05 (modulus is the C++ remainder) and C06 (its range is tight)
-/

namespace Verif.Bounded

open Verif

variable {W : Nat}

theorem commonType_some (hW : 64 ≤ W) {a b c : Rng} (ha : a.Wf W) (hb : b.Wf W)
    (h : commonType W a b = some c) :
    c = ⟨min a.lo b.lo, max a.hi b.hi⟩ ∧ c.Wf W := by
  unfold commonType at h
  have ra := ha.rep hW
  have rb := hb.rep hW
  rw [safeMin_eq hW ra.1 rb.1, safeMax_eq hW ra.2 rb.2] at h
  exact ⟨(mkInteger_some hW h).1, wf_of_mk hW h⟩

theorem commonType3_some (hW : 64 ≤ W) {a b c d : Rng} (ha : a.Wf W) (hb : b.Wf W) (hc : c.Wf W)
    (h : commonType3 W a b c = some d) :
    d = ⟨min (min a.lo b.lo) c.lo, max (max a.hi b.hi) c.hi⟩ ∧ d.Wf W := by
  unfold commonType3 at h
  simp only [Option.bind_eq_bind, Option.bind_eq_some_iff] at h
  obtain ⟨e, he, hd⟩ := h
  have h1 := commonType_some hW ha hb he
  have h2 := commonType_some hW h1.2 hc hd
  refine ⟨?_, h2.2⟩
  rw [h2.1, h1.1]

theorem modTy_some (hW : 64 ≤ W) {a b r : Rng} {t : CTy} (ha : a.Wf W) (hb : b.Wf W)
    (h : modTy W a b = some (r, t)) :
    modulusRange W a b = some (r.lo, r.hi) ∧ r.Wf W ∧ Ty W t ∧
      (∀ v, a.Mem v ∨ b.Mem v ∨ r.Mem v → t.Fits v) := by
  unfold modTy at h
  simp only [Option.bind_eq_bind, Option.bind_eq_some_iff, Option.pure_def, Option.some.injEq,
    Prod.mk.injEq] at h
  obtain ⟨p, hp, r', hr', c, hc, rfl, rfl⟩ := h
  have hwf := wf_of_mk hW hr'
  have hs := mkInteger_some hW hr'
  have h3 := commonType3_some hW hwf ha hb hc
  have hu := under_spec hW h3.2
  refine ⟨?_, hwf, hu.1, ?_⟩
  · rw [hs.1]; exact hp
  · intro v hv
    apply hu.2
    rw [h3.1]
    unfold Rng.Mem at *
    simp only
    omega

/-- C05 is false as stated: `integer<-2147483648, 0>(-2147483648) % constant<-1>`
compiles, the divisor is not zero, and the built-in `%` on `int` is undefined
because the quotient overflows. -/
theorem C05_mod_exact_violated :
    ∃ (a b : BInt) (x y : Int), Holds 128 a x ∧ Holds 128 b y ∧ y ≠ 0 ∧ mod 128 a b = some .ub := by
  refine ⟨⟨⟨-2147483648, 0⟩, -2147483648⟩, ⟨⟨-1, -1⟩, 0⟩, -2147483648, -1, ?_⟩
  unfold Holds
  decide +kernel

/-- Values whose negation overflows some built-in type at least as wide as `int`. -/
def MinOfBuiltin (W : Nat) (x : Int) : Prop := x = -(2 ^ 31) ∨ x = -(2 ^ 63) ∨ x = -(2 ^ (W - 1))

theorem candidates_signed_bits {t : CTy} (ht : t ∈ candidates W) (hs : t.promote.signed = true) :
    t.promote.bits = 32 ∨ t.promote.bits = 64 ∨ t.promote.bits = W := by
  unfold candidates at ht
  split at ht <;> simp at ht <;> rcases ht with h | h | h | h | h | h | h | h | h | h | h | h <;>
    (try subst h) <;> simp [CTy.promote] at hs ⊢ <;> split <;> simp

theorem tdiv_fits_of {t : CTy} (hlo : t.lo ≤ 0) (hhi : 0 ≤ t.hi) (hsym : t.signed = true → t.hi = -t.lo - 1)
    {x y : Int} (hx : t.Fits x) (hy : t.Fits y) (hun : t.signed = false → t.lo = 0)
    (h : t.signed = true → ¬ (x = t.lo ∧ y = -1)) :
    t.Fits (x.tdiv y) := by
  have habs : |x.tdiv y| ≤ |x| := by
    have e := Int.natAbs_tdiv x y
    rw [Int.abs_eq_natAbs, Int.abs_eq_natAbs, e]
    exact_mod_cast Nat.div_le_self _ _
  unfold CTy.Fits at *
  cases hs : t.signed with
  | false =>
    have := hun hs
    have hq : 0 ≤ x.tdiv y := Int.tdiv_nonneg (by omega) (by omega)
    rw [abs_of_nonneg hq, abs_of_nonneg (by omega)] at habs
    omega
  | true =>
    have hsy := hsym hs
    by_cases hm : x = t.lo
    · by_cases h1 : y = 1
      · subst h1; simp; omega
      · by_cases h0 : y = 0
        · subst h0; simp; omega
        · have hy1 : y ≠ -1 := fun hh => h hs ⟨hm, hh⟩
          have e := Int.natAbs_tdiv x y
          change (x.tdiv y).natAbs = x.natAbs / y.natAbs at e
          have hya : 2 ≤ y.natAbs := by omega
          have : x.natAbs / y.natAbs ≤ x.natAbs / 2 := Nat.div_le_div_left hya (by omega)
          rw [← e] at this
          clear e
          generalize x.tdiv y = q at *
          omega
    · have : |x| ≤ t.hi := by
        rw [abs_le]; omega
      have := abs_le.mp (le_trans habs this)
      omega

/-- C05, excluding the most negative value of a built-in type divided by minus
one: whenever `a % b` compiles and the divisor is not zero it evaluates to the
remainder of truncated division, inside the declared range. Missing for the full
property: `x` the minimum of `int`, `long` or `max_signed_t` together with `y = -1`,
where it is false (`C05_mod_exact_violated`). -/
theorem C05_mod_exact_partial (hW : 64 ≤ W) {a b : BInt} {x y : Int} (ha : Holds W a x)
    (hb : Holds W b y) (hc : mod W a b ≠ none) (hy : y ≠ 0)
    (hmin : ¬ (MinOfBuiltin W x ∧ y = -1)) : ∃ r, Yields (mod W a b) r (x.tmod y) := by
  cases hr : modTy W a.rng b.rng with
  | none => exact absurd (by unfold mod; rw [hr]; rfl) hc
  | some p =>
    obtain ⟨r, t⟩ := p
    have hsome := modTy_some hW ha.1 hb.1 hr
    have ra := ha.1.rep hW
    have rb := hb.1.rep hW
    have la := ((wf_iff hW _).mp ha.1).1
    have lb := ((wf_iff hW _).mp hb.1).1
    have mx := value_mem ha.2 la
    have my := value_mem hb.2 lb
    have hspec := modulusRange_spec hW ra rb la lb
      (by unfold Rng.Mem at my; omega) hsome.1
    have hin := hspec.1 x y mx my hy
    refine ⟨r, yields_of hW ?_ hsome.2.1⟩
    have fx := hsome.2.2.2 x (Or.inl mx)
    have fy := hsome.2.2.2 y (Or.inr (Or.inl my))
    have hb1 : 1 ≤ t.bits := hsome.2.2.1.1
    have hmem : t ∈ candidates W := by
      unfold modTy at hr
      simp only [Option.bind_eq_bind, Option.bind_eq_some_iff, Option.pure_def, Option.some.injEq,
        Prod.mk.injEq] at hr
      obtain ⟨p, hp, r', hr', c, hc, rfl, rfl⟩ := hr
      have hcw := (commonType3_some hW (wf_of_mk hW hr') ha.1 hb.1 hc).2
      have hrep := hcw.rep hW
      have hs := (wf_iff hW _).mp hcw
      have := (determineType_isSome hW hrep.1 hrep.2 hs.1).mpr hs.2
      obtain ⟨t, ht⟩ := Option.isSome_iff_exists.mp this
      unfold Rng.under
      rw [ht]
      exact (determineType_spec hW hrep.1 hrep.2 ht).1
    have hq : t.promote.Fits (x.tdiv y) := by
      apply tdiv_fits_of _ _ _ (promote_fits hb1 fx) (promote_fits hb1 fy)
      · intro hs; unfold CTy.lo; rw [hs]; rfl
      · intro hs hcon
        apply hmin
        refine ⟨?_, hcon.2⟩
        rw [hcon.1]
        unfold MinOfBuiltin CTy.lo
        rw [hs]
        rcases candidates_signed_bits hmem hs with h | h | h <;> rw [h] <;> simp
      · unfold CTy.lo
        have := CTy.two_pow_pos (t.promote.bits - 1)
        split <;> omega
      · unfold CTy.hi
        have := CTy.two_pow_pos (t.promote.bits - 1)
        have := CTy.two_pow_pos (t.promote.bits)
        split <;> omega
      · intro hs; unfold CTy.hi CTy.lo; rw [hs]; simp
    unfold mod
    rw [hr]
    simp only [Option.bind_eq_bind, Option.bind_some, Option.pure_def, ha.2, hb.2, Res.ok_bind]
    rw [CTy.wrap_of_fits hb1 fx, CTy.wrap_of_fits hb1 fy]
    unfold CTy.mod
    rw [if_neg hy, if_pos hq]
    refine ⟨_, rfl, rfl, ?_⟩
    exact unchecked_value hW hsome.2.1 hin rfl

/-- C05: a zero divisor is undefined behaviour, never a silent value. -/
theorem C05_mod_zero_undefined (hW : 64 ≤ W) {a b : BInt} {x : Int} (ha : Holds W a x)
    (hb : Holds W b 0) (hc : mod W a b ≠ none) : mod W a b = some .ub := by
  cases hr : modTy W a.rng b.rng with
  | none => exact absurd (by unfold mod; rw [hr]; rfl) hc
  | some p =>
    have hsome := modTy_some hW ha.1 hb.1 hr
    have my := value_mem hb.2 ((wf_iff hW _).mp hb.1).1
    unfold mod
    rw [hr]
    simp only [Option.bind_eq_bind, Option.bind_some, Option.pure_def, ha.2, hb.2, Res.ok_bind]
    rw [CTy.wrap_of_fits hsome.2.2.1.1 (hsome.2.2.2 0 (Or.inr (Or.inl my)))]
    unfold CTy.mod
    rfl

example : mod 128 ⟨⟨-17, 100⟩, -17⟩ ⟨⟨-7, 3⟩, -6⟩ = some (.ok ⟨⟨-6, 6⟩, -5⟩) := by decide +kernel
example : Holds 128 ⟨⟨-17, 100⟩, -17⟩ (-17) ∧ Holds 128 ⟨⟨-7, 3⟩, -6⟩ (-6) := by
  unfold Holds; decide +kernel
example : ¬ (MinOfBuiltin 128 (-17) ∧ (-6 : Int) = -1) := by omega

/-- C06: if the divisor range contains a usable divisor, both declared bounds of
`a % b` are remainders of values in range, so no smaller range would be sound. -/
theorem C06_mod_range_tight (hW : 64 ≤ W) {a b r : Rng} {t : CTy} (ha : a.Wf W) (hb : b.Wf W)
    (hr : modTy W a b = some (r, t)) (hnz : ∃ y, b.Mem y ∧ y ≠ 0) :
    (∃ x y, a.Mem x ∧ b.Mem y ∧ y ≠ 0 ∧ x.tmod y = r.lo) ∧
    (∃ x y, a.Mem x ∧ b.Mem y ∧ y ≠ 0 ∧ x.tmod y = r.hi) := by
  obtain ⟨y, hy, hy0⟩ := hnz
  have la := ((wf_iff hW _).mp ha).1
  have lb := ((wf_iff hW _).mp hb).1
  exact (modulusRange_spec hW (ha.rep hW) (hb.rep hW) la lb
    (by unfold Rng.Mem at hy; omega) (modTy_some hW ha hb hr).1).2

example : modTy 128 ⟨10, 13⟩ ⟨7, 8⟩ = some (⟨2, 6⟩, ⟨true, 8⟩) := by decide +kernel
example : Rng.Wf 128 ⟨10, 13⟩ ∧ Rng.Wf 128 ⟨7, 8⟩ := by decide +kernel

end Verif.Bounded
