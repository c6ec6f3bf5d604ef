import Verif.Bounded.Integer

/-!
# Properties C09 (comparison) and C10 (storage)
-/

namespace Verif.Bounded

variable {W : Nat}

/-- C09, built-in operands: for any two built-in types of the platform and any
values of them, `safe_compare` is the order of the mathematical values. -/
theorem C09_safe_compare_exact (hW : 64 ≤ W) {L R : CTy} (hL : Ty W L) (hR : Ty W R) {l r : Int}
    (hl : L.Fits l) (hr : R.Fits r) :
    (safeCompare W L R l r = .lt ↔ l < r) ∧
    (safeCompare W L R l r = .eq ↔ l = r) ∧
    (safeCompare W L R l r = .gt ↔ l > r) := by
  rw [safeCompare_eq hW hL hR hl hr]
  exact ⟨Int.compare_eq_lt, Int.compare_eq_eq, Int.compare_eq_gt⟩

example : safeCompare 128 ⟨true, 32⟩ ⟨false, 128⟩ (-1) (2 ^ 128 - 1) = .lt := by decide

/-- C09, built-in operands: `safe_equal` is mathematical equality. -/
theorem C09_safe_equal_exact (hW : 64 ≤ W) {L R : CTy} (hL : Ty W L) (hR : Ty W R) {l r : Int}
    (hl : L.Fits l) (hr : R.Fits r) : safeEqual W L R l r = true ↔ l = r := by
  rw [safeEqual_eq hW hL hR hl hr]; simp

example : safeEqual 128 ⟨true, 32⟩ ⟨false, 128⟩ (-1) (2 ^ 128 - 1) = false := by decide

/-- C09: `a <=> b` on bounded integers of any two types is defined and gives the
order of the mathematical values. -/
theorem C09_compare_exact (hW : 64 ≤ W) {a b : BInt} (ha : a.rng.Wf W) (hb : b.rng.Wf W)
    {x y : Int} (hx : a.value = .ok x) (hy : b.value = .ok y) :
    ∃ o, compareB W a b = .ok o ∧ (o = .lt ↔ x < y) ∧ (o = .eq ↔ x = y) ∧ (o = .gt ↔ x > y) := by
  have ra := ha.rep hW
  have rb := hb.rep hW
  have mx := value_mem hx ((wf_iff hW _).mp ha).1
  have my := value_mem hy ((wf_iff hW _).mp hb).1
  unfold compareB
  rw [safeCompare_norm hW ra.1 rb.2, safeCompare_norm hW ra.2 rb.1]
  simp only [Int.compare_eq_gt, Int.compare_eq_lt]
  split
  · refine ⟨.gt, rfl, ?_, ?_, ?_⟩ <;> simp <;> omega
  · split
    · refine ⟨.lt, rfl, ?_, ?_, ?_⟩ <;> simp <;> omega
    · simp only [hx, hy, Res.ok_bind, Res.pure_def]
      have ua := under_spec hW ha
      have ub := under_spec hW hb
      exact ⟨_, rfl, C09_safe_compare_exact hW ua.1 ub.1 (ua.2 _ mx) (ub.2 _ my)⟩

/-- C09: `a == b` on bounded integers of any two types is defined and is
mathematical equality. -/
theorem C09_equal_exact (hW : 64 ≤ W) {a b : BInt} (ha : a.rng.Wf W) (hb : b.rng.Wf W)
    {x y : Int} (hx : a.value = .ok x) (hy : b.value = .ok y) :
    ∃ r, equalB W a b = .ok r ∧ (r = true ↔ x = y) := by
  have ra := ha.rep hW
  have rb := hb.rep hW
  have mx := value_mem hx ((wf_iff hW _).mp ha).1
  have my := value_mem hy ((wf_iff hW _).mp hb).1
  unfold equalB
  rw [safeCompare_norm hW ra.1 rb.2, safeCompare_norm hW ra.2 rb.1]
  simp only [Int.compare_eq_gt, Int.compare_eq_lt]
  split
  · refine ⟨false, rfl, ?_⟩; simp; omega
  · simp only [hx, hy, Res.ok_bind, Res.pure_def]
    have ua := under_spec hW ha
    have ub := under_spec hW hb
    exact ⟨_, rfl, C09_safe_equal_exact hW ua.1 ub.1 (ua.2 _ mx) (ub.2 _ my)⟩

/-- Hypotheses are satisfiable: comparing `integer<-5, 10>` holding -3 with
`integer<0, 2^128-1>` holding 7. -/
example : (⟨-5, 10⟩ : Rng).Wf 128 ∧ (⟨0, 2 ^ 128 - 1⟩ : Rng).Wf 128 ∧
    (⟨⟨-5, 10⟩, -3⟩ : BInt).value = .ok (-3) ∧ (⟨⟨0, 2 ^ 128 - 1⟩, 7⟩ : BInt).value = .ok 7 ∧
    compareB 128 ⟨⟨-5, 10⟩, -3⟩ ⟨⟨0, 2 ^ 128 - 1⟩, 7⟩ = .ok .lt := by decide +kernel

/-- C10: `normalize<value>` keeps the value, for a value of any built-in type. -/
theorem C10_normalize_value (hW : 64 ≤ W) {t : CTy} (ht : Ty W t) {v : Int} (hv : t.Fits v) :
    normalizeVal W t v = v ∧ (normalizeTy W t v).Fits v := by
  have ⟨h1, h2⟩ := pow_facts hW
  have bt := ty_bounds hW ht
  have suff : Ty W (normalizeTy W t v) ∧ (normalizeTy W t v).Fits v := by
    unfold normalizeTy
    have hp : 32 ≤ t.promote.bits ∧ t.promote.bits ≤ W := by
      unfold CTy.promote
      have := ht.2
      split
      · show 32 ≤ 32 ∧ 32 ≤ W; omega
      · omega
    have hpty : Ty W t.promote := ⟨by omega, hp.2⟩
    have hpf : t.promote.Fits v := by
      unfold CTy.promote
      split
      · rename_i hlt
        have e1 := CTy.two_pow_le (m := t.bits) (n := 31) (by omega)
        have e2 := CTy.two_pow_le (m := t.bits - 1) (n := 31) (by omega)
        unfold CTy.Fits CTy.lo CTy.hi at *
        have e0 := CTy.two_pow_pos t.bits
        have e0' := CTy.two_pow_pos (t.bits - 1)
        cases hs : t.signed <;> simp [hs] at hv ⊢ <;> norm_num at * <;> omega
      · exact hv
    generalize t.promote = p at *
    have bp := ty_bounds hW hpty
    split
    · rename_i hfit
      refine ⟨⟨by decide, by show 32 ≤ W; omega⟩, ?_⟩
      unfold fitsInInt at hfit
      have il : intTy.lo = -2147483648 := by decide
      have ih : intTy.hi = 2147483647 := by decide
      have hph : p.Fits intTy.hi := by
        have e1 := CTy.two_pow_le (m := 32) (n := p.bits) hp.1
        have e2 := CTy.two_pow_le (m := 31) (n := p.bits - 1) (by omega)
        rw [ih]
        unfold CTy.Fits CTy.lo CTy.hi
        cases hs : p.signed <;> simp <;> norm_num at * <;> omega
      split at hfit
      · have hsg : p.signed = true := by
          by_contra hns
          have := bp.2.2.2.1 (by simpa using hns)
          unfold CTy.Fits at hpf; omega
        have hpl : p.Fits intTy.lo := by
          have e2 := CTy.two_pow_le (m := 31) (n := p.bits - 1) (by omega)
          rw [il]
          unfold CTy.Fits CTy.lo CTy.hi
          simp [hsg]; norm_num at *; omega
        rw [CTy.wrap_of_fits hpty.1 hpl] at hfit
        simp at hfit; unfold CTy.Fits; omega
      · rw [CTy.wrap_of_fits hpty.1 hph] at hfit
        simp at hfit; unfold CTy.Fits; omega
    · split
      · rename_i _ hm
        refine ⟨⟨by show 1 ≤ W; omega, Nat.le_refl _⟩, ?_⟩
        unfold mustUseUnsigned at hm
        simp at hm
        simp [CTy.Fits, umax, CTy.lo, CTy.hi]; unfold CTy.Fits at hv; omega
      · rename_i _ hm
        refine ⟨⟨by show 1 ≤ W; omega, Nat.le_refl _⟩, ?_⟩
        unfold mustUseUnsigned at hm
        by_cases hpos : 0 < v
        · rw [CTy.wrap_of_fits (t := umax W) (by show 1 ≤ W; omega)
              (by simp [CTy.Fits, umax, CTy.lo, CTy.hi]; unfold CTy.Fits at hv; omega),
            CTy.wrap_of_fits (t := umax W) (by show 1 ≤ W; omega)
              (by simp [CTy.Fits, umax, smax, CTy.lo, CTy.hi]; omega)] at hm
          simp [smax, CTy.hi] at hm
          simp [CTy.Fits, smax, CTy.lo, CTy.hi]; omega
        · simp [CTy.Fits, smax, CTy.lo, CTy.hi]; unfold CTy.Fits at hv; omega
  exact ⟨CTy.wrap_of_fits suff.1.1 suff.2, suff.2⟩

example : Ty 128 ⟨false, 8⟩ ∧ (⟨false, 8⟩ : CTy).Fits 200 ∧ normalizeTy 128 ⟨false, 8⟩ 200 = intTy :=
  by decide +kernel

/-- C10: a range `[lo, hi]` is accepted exactly when it is non-empty and fits the
widest unsigned or the widest signed built-in type. -/
theorem C10_accepted_iff (hW : 64 ≤ W) (lo hi : Int) :
    mkInteger W lo hi = some ⟨lo, hi⟩ ↔
      lo ≤ hi ∧ ((0 ≤ lo ∧ hi < 2 ^ W) ∨ (-(2 ^ (W - 1)) ≤ lo ∧ hi < 2 ^ (W - 1))) := by
  rw [mkInteger_eq hW]
  split <;> simp_all

/-- C10: the storage type of an accepted range represents every value of the
range. -/
theorem C10_storage_holds_range (hW : 64 ≤ W) {r : Rng} (h : r.Wf W) {v : Int}
    (hv : r.lo ≤ v ∧ v ≤ r.hi) :
    r.under W ∈ candidates W ∧ (r.under W).lo ≤ v ∧ v ≤ (r.under W).hi := by
  have hr := h.rep hW
  have h' := (wf_iff hW r).mp h
  obtain ⟨t, ht⟩ := Option.isSome_iff_exists.mp ((determineType_isSome hW hr.1 hr.2 h'.1).mpr h'.2)
  have hs := determineType_spec hW hr.1 hr.2 ht
  have hu : r.under W = t := by unfold Rng.under; rw [ht]; rfl
  exact ⟨hu ▸ hs.1, (under_spec hW h).2 v hv⟩

/-- C10: the storage type is the narrowest candidate: any platform type that can
hold both bounds is at least as wide. -/
theorem C10_storage_narrowest (hW : 64 ≤ W) {r : Rng} (h : r.Wf W) {t : CTy}
    (ht : t ∈ candidates W) (hl : t.Fits r.lo) (hh : t.Fits r.hi) :
    (r.under W).bits ≤ t.bits := by
  have hr := h.rep hW
  unfold Rng.under
  rw [determineType_first hW hr.1 hr.2]
  have sorted : (candidates W).Pairwise (fun a b => a.bits ≤ b.bits) := by
    unfold candidates
    split <;> simp <;> omega
  generalize candidates W = l at *
  induction l with
  | nil => simp at ht
  | cons a l ih =>
    rw [List.find?_cons]
    by_cases ha : a.Fits r.lo ∧ a.Fits r.hi
    · rw [decide_eq_true ha]
      simp only [Option.getD_some]
      rcases List.mem_cons.mp ht with rfl | ht
      · exact Nat.le_refl _
      · exact (List.pairwise_cons.mp sorted).1 _ ht
    · rw [decide_eq_false ha]
      rcases List.mem_cons.mp ht with rfl | ht
      · exact absurd ⟨hl, hh⟩ ha
      · exact ih ht (List.pairwise_cons.mp sorted).2

/-- C10: constructing from any in-range value and reading it back returns it. -/
theorem C10_construct_read (hW : 64 ≤ W) {r : Rng} (h : r.Wf W) {v : Int}
    (hv : r.lo ≤ v ∧ v ≤ r.hi) : (r.unchecked W v).value = .ok v :=
  unchecked_value hW h hv rfl

example : (⟨-200, 300⟩ : Rng).Wf 128 ∧ (⟨-200, 300⟩ : Rng).under 128 = ⟨true, 16⟩ ∧
    ((⟨-200, 300⟩ : Rng).unchecked 128 (-200)).value = .ok (-200) := by decide +kernel

/-- C10: implicit conversion compiles exactly when the source range is contained
in the target range, and then keeps the value. -/
theorem C10_convert_exact (hW : 64 ≤ W) {r : Rng} (hr : r.Wf W) {b : BInt} (hb : b.rng.Wf W)
    {x : Int} (hx : b.value = .ok x) :
    (r.lo ≤ b.rng.lo ∧ b.rng.hi ≤ r.hi →
      ∃ c, convert W r b = some (.ok c) ∧ c.rng = r ∧ c.value = .ok x) ∧
    (¬ (r.lo ≤ b.rng.lo ∧ b.rng.hi ≤ r.hi) → convert W r b = none) := by
  have rr := hr.rep hW
  have rb := hb.rep hW
  have mx := value_mem hx ((wf_iff hW _).mp hb).1
  have hle := ((wf_iff hW _).mp hb).1
  have hle' := ((wf_iff hW _).mp hr).1
  have hbb : b.rng.boundedBy W r = decide (r.lo ≤ b.rng.lo ∧ b.rng.hi ≤ r.hi) := by
    unfold Rng.boundedBy Rng.overlaps
    rw [safeCompare_norm hW rb.1 rr.2, safeCompare_norm hW rr.1 rb.2, safeCompare_norm hW rr.1 rb.1,
      safeCompare_norm hW rb.2 rr.2]
    rw [Bool.eq_iff_iff]
    simp [isLE_compare]
    omega
  unfold convert
  rw [hbb]
  constructor
  · intro h
    simp only [h, and_self, decide_true, if_true, hx, Res.ok_bind, Res.pure_def]
    refine ⟨_, rfl, rfl, C10_construct_read hW hr ?_⟩
    unfold Rng.Mem at mx
    omega
  · intro h
    simp [h]

example : convert 128 ⟨-1, 1000⟩ ⟨⟨0, 200⟩, 150⟩ = some (.ok ⟨⟨-1, 1000⟩, 150⟩) := by decide +kernel
example : convert 128 ⟨1, 1000⟩ ⟨⟨0, 200⟩, 150⟩ = none := by decide +kernel

end Verif.Bounded
