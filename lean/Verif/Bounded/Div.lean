import Verif.Bounded.Arith

/-!
# Division of `bounded::integer`
-/

namespace Verif.Bounded

open Verif

/-- source/bounded/arithmetic/safe_abs.cpp 12-14 `safe_abs`. -/
def safeAbs (W : Nat) (v : Int) : Int :=
  if v < 0 then unsNeg W ((umax W).wrap v) else (umax W).wrap v

/-- source/bounded/arithmetic/divides.cpp 28-38 `safer_divide<lhs, rhs>()`
(unsigned division of the magnitudes; a zero divisor is a constant-evaluation
error, `none`). -/
def saferDiv (W : Nat) (l r : Int) : Option Int :=
  if r = 0 then none
  else
    let positive := safeAbs W l / safeAbs W r
    if (decide (l < 0) ^^ decide (r < 0)) then some ((smax W).wrap (unsNeg W positive))
    else some positive

/-- source/bounded/arithmetic/divides.cpp 40-47 `positive_divisor_division`. -/
def positiveDivisorDivision (W : Nat) (l r : Rng) : Option (Int × Int) := do
  let minimumDivisor := if l.lo < 0 then r.lo else r.hi
  let maximumDivisor := if l.hi < 0 then r.hi else r.lo
  return (← saferDiv W l.lo minimumDivisor, ← saferDiv W l.hi maximumDivisor)

/-- source/bounded/arithmetic/divides.cpp 48-55 `negative_divisor_division`. -/
def negativeDivisorDivision (W : Nat) (l r : Rng) : Option (Int × Int) := do
  let minimumDivisor := if l.hi ≥ 0 then r.hi else r.lo
  let maximumDivisor := if l.lo ≥ 0 then r.lo else r.hi
  return (← saferDiv W l.hi minimumDivisor, ← saferDiv W l.lo maximumDivisor)

/-- source/bounded/arithmetic/divides.cpp 57-70 `divides_operator_range`. -/
def dividesRange (W : Nat) (l r : Rng) : Option (Int × Int) :=
  if r.lo ≥ 1 then positiveDivisorDivision W l r
  else if r.hi ≤ -1 then negativeDivisorDivision W l r
  else do
    let positive ← positiveDivisorDivision W l ⟨1, r.hi⟩
    let negative ← negativeDivisorDivision W l ⟨r.lo, -1⟩
    return (safeMin W positive.1 negative.1, safeMax W positive.2 negative.2)

/-- source/bounded/arithmetic/divides.cpp 74-84: the compile-time part of
`operator/`: static_asserts, result type and common type. -/
def divTy (W : Nat) (a b : Rng) : Option (Rng × CTy) :=
  if b.lo = 0 ∨ b.hi = 0 then none
  else do
    let range ← dividesRange W a b
    let r ← mkInteger W range.1 range.2
    let common ← determineType W (safeMin W (safeMin W range.1 a.lo) b.lo)
      (safeMax W (safeMax W range.2 a.hi) b.hi)
    return (r, common)

/-- source/bounded/arithmetic/divides.cpp 72-92 `operator/`. -/
def div (W : Nat) (a b : BInt) : Option (Res BInt) := do
  let (r, common) ← divTy W a.rng b.rng
  return do
    let x ← a.value
    let y ← b.value
    let q ← common.promote.div (common.wrap x) (common.wrap y)
    return r.unchecked W q

/-! ## Facts -/

section
variable {W : Nat}

theorem safeAbs_eq (hW : 64 ≤ W) {v : Int} (hv : Rep W v) : safeAbs W v = |v| := by
  have ⟨h1, h2⟩ := pow_facts hW
  unfold Rep at hv
  unfold safeAbs unsNeg
  split
  · rw [umax_wrap, neg_emod_emod, Int.emod_eq_of_lt (by omega) (by omega), abs_of_neg (by assumption)]
  · rw [umax_wrap, Int.emod_eq_of_lt (by omega) (by omega), abs_of_nonneg (by omega)]

/-- `a.tdiv b` in terms of magnitudes. -/
theorem tdiv_abs (a b : Int) :
    a.tdiv b = if (decide (a < 0) ^^ decide (b < 0)) then -(|a| / |b|) else |a| / |b| := by
  by_cases ha : a < 0 <;> by_cases hb : b < 0 <;> simp [ha, hb]
  · rw [abs_of_neg ha, abs_of_neg hb, ← Int.neg_tdiv_neg, Int.tdiv_eq_ediv_of_nonneg (by omega)]
  · rw [abs_of_neg ha, abs_of_nonneg (by omega)]
    conv_lhs => rw [← Int.neg_neg a, Int.neg_tdiv, Int.tdiv_eq_ediv_of_nonneg (by omega)]
  · rw [abs_of_nonneg (by omega), abs_of_neg hb]
    conv_lhs => rw [← Int.neg_neg b, Int.tdiv_neg, Int.tdiv_eq_ediv_of_nonneg (by omega)]
  · rw [abs_of_nonneg (by omega), abs_of_nonneg (by omega), Int.tdiv_eq_ediv_of_nonneg (by omega)]

theorem saferDiv_eq (hW : 64 ≤ W) {l r : Int} (hl : Rep W l) (hr : Rep W r) (h0 : r ≠ 0)
    (hlim : l < 2 ^ (W - 1) ∨ 0 < r) : saferDiv W l r = some (l.tdiv r) := by
  have ⟨h1, h2⟩ := pow_facts hW
  unfold saferDiv
  rw [if_neg h0, safeAbs_eq hW hl, safeAbs_eq hW hr, tdiv_abs]
  simp only
  have hq : |l| / |r| ≤ |l| := Int.ediv_le_self _ (abs_nonneg l)
  have hq0 : 0 ≤ |l| / |r| := Int.ediv_nonneg (abs_nonneg _) (abs_nonneg _)
  split
  · rename_i hx
    have hb : |l| ≤ 2 ^ (W - 1) := by
      unfold Rep at hl
      by_cases hln : l < 0
      · rw [abs_of_neg hln]; omega
      · rw [abs_of_nonneg (by omega)]
        rcases hlim with h | h
        · omega
        · simp [hln] at hx; omega
    congr 1
    unfold unsNeg
    exact smax_wrap_emod hW (by omega) (by omega)
  · rfl

theorem tdiv_anti_nonneg {a b c : Int} (ha : 0 ≤ a) (hb : 0 < b) (hbc : b ≤ c) :
    a.tdiv c ≤ a.tdiv b := by
  rw [Int.tdiv_eq_ediv_of_nonneg ha, Int.tdiv_eq_ediv_of_nonneg ha]
  exact Int.ediv_le_ediv_of_pos_of_le_of_nonneg' ha hb hbc
where
  Int.ediv_le_ediv_of_pos_of_le_of_nonneg' {a b c : Int} (ha : 0 ≤ a) (hb : 0 < b) (hbc : b ≤ c) :
      a / c ≤ a / b := by
    apply Int.le_ediv_of_mul_le hb
    have h1 : a / c * c ≤ a := Int.ediv_mul_le _ (by omega)
    have h2 : 0 ≤ a / c := Int.ediv_nonneg ha (by omega)
    have h3 : a / c * b ≤ a / c * c := Int.mul_le_mul_of_nonneg_left hbc h2
    omega

theorem tdiv_mono_neg {a b c : Int} (ha : a ≤ 0) (hb : 0 < b) (hbc : b ≤ c) :
    a.tdiv b ≤ a.tdiv c := by
  have := tdiv_anti_nonneg (a := -a) (by omega) hb hbc
  rw [Int.neg_tdiv, Int.neg_tdiv] at this
  omega

/-- Quotients by a positive divisor range. -/
theorem pos_div_bounds {al ah bl bh x y : Int} (hx : al ≤ x ∧ x ≤ ah) (hy : bl ≤ y ∧ y ≤ bh)
    (hb : 1 ≤ bl) :
    al.tdiv (if al < 0 then bl else bh) ≤ x.tdiv y ∧
    x.tdiv y ≤ ah.tdiv (if ah < 0 then bh else bl) := by
  have m1 := Int.tdiv_le_tdiv (c := y) (by omega) hx.1
  have m2 := Int.tdiv_le_tdiv (c := y) (by omega) hx.2
  constructor
  · refine Int.le_trans ?_ m1
    split
    · exact tdiv_mono_neg (by omega) (by omega) hy.1
    · exact tdiv_anti_nonneg (by omega) (by omega) hy.2
  · refine Int.le_trans m2 ?_
    split
    · exact tdiv_mono_neg (by omega) (by omega) hy.2
    · exact tdiv_anti_nonneg (by omega) (by omega) hy.1

/-- Quotients by a negative divisor range. -/
theorem neg_div_bounds {al ah bl bh x y : Int} (hx : al ≤ x ∧ x ≤ ah) (hy : bl ≤ y ∧ y ≤ bh)
    (hb : bh ≤ -1) :
    ah.tdiv (if ah ≥ 0 then bh else bl) ≤ x.tdiv y ∧
    x.tdiv y ≤ al.tdiv (if al ≥ 0 then bl else bh) := by
  have h := pos_div_bounds (al := -ah) (ah := -al) (bl := -bh) (bh := -bl) (x := -x) (y := -y)
    (by omega) (by omega) (by omega)
  rw [Int.neg_tdiv_neg] at h
  have e1 : (-ah).tdiv (if -ah < 0 then -bh else -bl) = ah.tdiv (if ah ≥ 0 then bh else bl) := by
    by_cases hz : ah = 0
    · subst hz; simp
    · by_cases h0 : ah > 0
      · rw [if_pos (by omega), if_pos (by omega), Int.neg_tdiv_neg]
      · rw [if_neg (by omega), if_neg (by omega), Int.neg_tdiv_neg]
  have e2 : (-al).tdiv (if -al < 0 then -bl else -bh) = al.tdiv (if al ≥ 0 then bl else bh) := by
    by_cases hz : al = 0
    · subst hz; simp
    · by_cases h0 : al > 0
      · rw [if_pos (by omega), if_pos (by omega), Int.neg_tdiv_neg]
      · rw [if_neg (by omega), if_neg (by omega), Int.neg_tdiv_neg]
  rw [e1, e2] at h
  exact h

theorem saferDiv_rep (hW : 64 ≤ W) {l r q : Int} (hl : Rep W l) (hr : Rep W r)
    (h : saferDiv W l r = some q) : Rep W q := by
  have ⟨h1, h2⟩ := pow_facts hW
  unfold saferDiv at h
  split at h
  · simp at h
  · rw [safeAbs_eq hW hl, safeAbs_eq hW hr] at h
    have hq : |l| / |r| ≤ |l| := Int.ediv_le_self _ (abs_nonneg l)
    have hq0 : 0 ≤ |l| / |r| := Int.ediv_nonneg (abs_nonneg _) (abs_nonneg _)
    have hal : |l| < 2 ^ W := by
      unfold Rep at hl
      by_cases hln : l < 0
      · rw [abs_of_neg hln]; omega
      · rw [abs_of_nonneg (by omega)]; omega
    simp only at h
    split at h
    · simp at h; subst h
      have := CTy.wrap_fits (t := smax W) (by show 1 ≤ W; omega) (unsNeg W (|l| / |r|))
      unfold CTy.Fits at this
      rw [smax_hi, smax_lo] at this
      unfold Rep; omega
    · simp at h; subst h; unfold Rep; omega

theorem posDiv_rep (hW : 64 ≤ W) {l r : Rng} {p : Int × Int} (hl : Rep W l.lo ∧ Rep W l.hi)
    (hr : Rep W r.lo ∧ Rep W r.hi)
    (h : positiveDivisorDivision W l r = some p) : Rep W p.1 ∧ Rep W p.2 := by
  unfold positiveDivisorDivision at h
  simp only [Option.bind_eq_bind, Option.bind_eq_some_iff, Option.pure_def, Option.some.injEq] at h
  obtain ⟨q1, e1, q2, e2, rfl⟩ := h
  refine ⟨saferDiv_rep hW hl.1 ?_ e1, saferDiv_rep hW hl.2 ?_ e2⟩ <;> split <;> first | exact hr.1 | exact hr.2

theorem negDiv_rep (hW : 64 ≤ W) {l r : Rng} {p : Int × Int} (hl : Rep W l.lo ∧ Rep W l.hi)
    (hr : Rep W r.lo ∧ Rep W r.hi)
    (h : negativeDivisorDivision W l r = some p) : Rep W p.1 ∧ Rep W p.2 := by
  unfold negativeDivisorDivision at h
  simp only [Option.bind_eq_bind, Option.bind_eq_some_iff, Option.pure_def, Option.some.injEq] at h
  obtain ⟨q1, e1, q2, e2, rfl⟩ := h
  refine ⟨saferDiv_rep hW hl.2 ?_ e1, saferDiv_rep hW hl.1 ?_ e2⟩ <;> split <;> first | exact hr.1 | exact hr.2

theorem dividesRange_rep (hW : 64 ≤ W) {l r : Rng} {p : Int × Int} (hl : Rep W l.lo ∧ Rep W l.hi)
    (hr : Rep W r.lo ∧ Rep W r.hi)
    (h : dividesRange W l r = some p) : Rep W p.1 ∧ Rep W p.2 := by
  have ⟨h1, h2⟩ := pow_facts hW
  unfold dividesRange at h
  split at h
  · exact posDiv_rep hW hl hr h
  · split at h
    · exact negDiv_rep hW hl hr h
    · simp only [Option.bind_eq_bind, Option.bind_eq_some_iff, Option.pure_def, Option.some.injEq] at h
      obtain ⟨q1, e1, q2, e2, rfl⟩ := h
      have r1 := posDiv_rep hW hl (r := ⟨1, r.hi⟩) ⟨by unfold Rep; simp only; omega, hr.2⟩ e1
      have r2 := negDiv_rep hW hl (r := ⟨r.lo, -1⟩) ⟨hr.1, by unfold Rep; simp only; omega⟩ e2
      simp only
      rw [safeMin_eq hW r1.1 r2.1, safeMax_eq hW r1.2 r2.2]
      exact ⟨rep_min hW r1.1 r2.1, rep_max hW r1.2 r2.2⟩

/-- Soundness of the computed quotient range, under the condition that the common
type check enforces. -/
theorem dividesRange_sound (hW : 64 ≤ W) {l r : Rng} {p : Int × Int}
    (hl : Rep W l.lo ∧ Rep W l.hi) (hr : Rep W r.lo ∧ Rep W r.hi)
    (hlim : l.hi < 2 ^ (W - 1) ∨ 0 < r.lo) (hlle : l.lo ≤ l.hi)
    (h : dividesRange W l r = some p) {x y : Int} (hx : l.Mem x) (hy : r.Mem y) (hy0 : y ≠ 0) :
    p.1 ≤ x.tdiv y ∧ x.tdiv y ≤ p.2 := by
  have ⟨h1, h2⟩ := pow_facts hW
  have r1 : Rep W 1 := by unfold Rep; omega
  have rm1 : Rep W (-1) := by unfold Rep; omega
  have posCase : ∀ (s : Rng) (q : Int × Int), Rep W s.lo ∧ Rep W s.hi → 1 ≤ s.lo → s.Mem y →
      positiveDivisorDivision W l s = some q → q.1 ≤ x.tdiv y ∧ x.tdiv y ≤ q.2 := by
    intro s q hs hs1 hm hq
    unfold positiveDivisorDivision at hq
    dsimp only at hq
    have hle : s.lo ≤ s.hi := by unfold Rng.Mem at hm; omega
    rw [saferDiv_eq hW hl.1 (by split <;> first | exact hs.1 | exact hs.2) (by split <;> omega) (by right; split <;> omega),
      saferDiv_eq hW hl.2 (by split <;> first | exact hs.1 | exact hs.2) (by split <;> omega) (by right; split <;> omega)] at hq
    simp at hq
    subst hq
    exact pos_div_bounds hx hm hs1
  have negCase : ∀ (s : Rng) (q : Int × Int), Rep W s.lo ∧ Rep W s.hi → s.hi ≤ -1 → s.Mem y →
      l.hi < 2 ^ (W - 1) →
      negativeDivisorDivision W l s = some q → q.1 ≤ x.tdiv y ∧ x.tdiv y ≤ q.2 := by
    intro s q hs hs1 hm hlm hq
    unfold negativeDivisorDivision at hq
    dsimp only at hq
    have hle : s.lo ≤ s.hi := by unfold Rng.Mem at hm; omega
    rw [saferDiv_eq hW hl.2 (by split <;> first | exact hs.1 | exact hs.2) (by split <;> omega) (by left; omega),
      saferDiv_eq hW hl.1 (by split <;> first | exact hs.1 | exact hs.2) (by split <;> omega) (by left; omega)] at hq
    simp at hq
    subst hq
    exact neg_div_bounds hx hm hs1
  unfold dividesRange at h
  split at h
  · exact posCase r p hr (by omega) hy h
  · split at h
    · exact negCase r p hr (by omega) hy (by unfold Rng.Mem at hy; omega) h
    · simp only [Option.bind_eq_bind, Option.bind_eq_some_iff, Option.pure_def, Option.some.injEq] at h
      obtain ⟨q1, e1, q2, e2, rfl⟩ := h
      have rp := posDiv_rep hW hl (r := ⟨1, r.hi⟩) ⟨r1, hr.2⟩ e1
      have rn := negDiv_rep hW hl (r := ⟨r.lo, -1⟩) ⟨hr.1, rm1⟩ e2
      simp only
      rw [safeMin_eq hW rp.1 rn.1, safeMax_eq hW rp.2 rn.2]
      unfold Rng.Mem at hy
      by_cases hpos : 0 < y
      · have := posCase ⟨1, r.hi⟩ q1 ⟨r1, hr.2⟩ (by simp) (by unfold Rng.Mem; simp only; omega) e1
        omega
      · have := negCase ⟨r.lo, -1⟩ q2 ⟨hr.1, rm1⟩ (by simp) (by unfold Rng.Mem; simp only; omega)
          (by omega) e2
        omega

theorem promote_fits {t : CTy} (hb : 1 ≤ t.bits) {v : Int} (h : t.Fits v) : t.promote.Fits v := by
  unfold CTy.promote
  split
  · have e1 := CTy.two_pow_le (m := t.bits) (n := 31) (by omega)
    have e2 := CTy.two_pow_le (m := t.bits - 1) (n := 31) (by omega)
    unfold CTy.Fits CTy.lo CTy.hi at *
    have e0 := CTy.two_pow_pos t.bits
    have e0' := CTy.two_pow_pos (t.bits - 1)
    cases hs : t.signed <;> simp [hs] at h ⊢ <;> norm_num at * <;> omega
  · exact h

theorem div_value (hW : 64 ≤ W) {a b : BInt} {r : Rng} {t : CTy} (ha : a.rng.Wf W)
    (hb : b.rng.Wf W) (hr : divTy W a.rng b.rng = some (r, t)) {x y : Int}
    (hx : a.value = .ok x) (hy : b.value = .ok y) :
    (y ≠ 0 → ∃ c, div W a b = some (.ok c) ∧ c.rng = r ∧ c.value = .ok (x.tdiv y) ∧ r.Wf W) ∧
    (y = 0 → div W a b = some .ub) := by
  have ⟨h1, h2⟩ := pow_facts hW
  have mx := value_mem hx ((wf_iff hW _).mp ha).1
  have my := value_mem hy ((wf_iff hW _).mp hb).1
  have ra := ha.rep hW
  have rb := hb.rep hW
  have hale := ((wf_iff hW _).mp ha).1
  have hble := ((wf_iff hW _).mp hb).1
  have hr' := hr
  unfold divTy at hr'
  split at hr'
  · simp at hr'
  rename_i hz
  simp only [Option.bind_eq_bind, Option.bind_eq_some_iff, Option.pure_def, Option.some.injEq,
    Prod.mk.injEq] at hr'
  obtain ⟨p, hp, r', hr', t', ht', rfl, rfl⟩ := hr'
  have rp := dividesRange_rep hW ra rb hp
  have hwf := wf_of_mk hW hr'
  have hs := mkInteger_some hW hr'
  rw [safeMin_eq hW rp.1 ra.1, safeMin_eq hW (rep_min hW rp.1 ra.1) rb.1,
    safeMax_eq hW rp.2 ra.2, safeMax_eq hW (rep_max hW rp.2 ra.2) rb.2] at ht'
  have rmin := rep_min hW (rep_min hW rp.1 ra.1) rb.1
  have rmax := rep_max hW (rep_max hW rp.2 ra.2) rb.2
  have hspec := determineType_spec hW rmin rmax ht'
  have hsto := (determineType_isSome hW rmin rmax (by omega)).mp (by rw [ht']; rfl)
  have hfit : ∀ v, min (min p.1 a.rng.lo) b.rng.lo ≤ v → v ≤ max (max p.2 a.rng.hi) b.rng.hi →
      t'.Fits v := by
    intro v hv1 hv2
    have := hspec.2.2
    unfold CTy.Fits at *
    omega
  have fx : t'.wrap x = x := by
    unfold Rng.Mem at mx
    exact CTy.wrap_of_fits hspec.2.1.1 (hfit x (by omega) (by omega))
  have fy : t'.wrap y = y := by
    unfold Rng.Mem at my
    exact CTy.wrap_of_fits hspec.2.1.1 (hfit y (by omega) (by omega))
  have hlim : a.rng.hi < 2 ^ (W - 1) ∨ 0 < b.rng.lo := by
    unfold Storable at hsto; omega
  have hdiv : div W a b = some (do
      let q ← t'.promote.div x y
      return r'.unchecked W q) := by
    unfold div
    rw [hr]
    simp only [Option.bind_eq_bind, Option.bind_some, Option.pure_def, hx, hy, Res.ok_bind, fx, fy]
  constructor
  · intro hy0
    have hq := dividesRange_sound hW ra rb hlim hale hp mx my hy0
    have hqf := promote_fits hspec.2.1.1 (hfit (x.tdiv y) (by omega) (by omega))
    rw [hdiv]
    unfold CTy.div
    rw [if_neg hy0, if_pos hqf]
    refine ⟨_, rfl, rfl, ?_, hwf⟩
    apply unchecked_value hW hwf _ rfl
    rw [hs.1]; exact hq
  · intro hy0
    rw [hdiv]
    unfold CTy.div
    rw [if_pos hy0]
    rfl

end
end Verif.Bounded
