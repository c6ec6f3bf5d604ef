import Mathlib.Data.List.Forall2
import Verif.Bounded.Exactly
import Verif.Bounded.LogPow
import Verif.Bounded.MinMaxProps

/-!
# The declared ranges are as small as possible (C88)

An operator is exact if its result is in the declared range for all values of the operands. The range is as small as possible if both of its bounds are results.
-/

namespace Verif.Bounded

open Verif

/-- For the types `A` and `B` the operator has a result of type `integer<r.lo, r.hi>` that is `f` of the values of the operands, for all values that satisfy
`ok`, and both bounds are the results for some values. -/
structure TightFor (W : Nat) (op : BInt → BInt → Option (Res BInt)) (f : Int → Int → Int) (ok : Int → Int → Prop) (A B r : Rng) : Prop where
  exact : ∀ a b x y, Holds W a x → Holds W b y → a.rng = A → b.rng = B → ok x y → Yields (op a b) r (f x y)
  least : ∃ x y, A.Mem x ∧ B.Mem y ∧ ok x y ∧ f x y = r.lo
  greatest : ∃ x y, A.Mem x ∧ B.Mem y ∧ ok x y ∧ f x y = r.hi

/-- The same for one operand. -/
structure TightFor1 (W : Nat) (op : BInt → Option (Res BInt)) (f : Int → Int) (A r : Rng) : Prop where
  exact : ∀ a x, Holds W a x → a.rng = A → Yields (op a) r (f x)
  least : ∃ x, A.Mem x ∧ f x = r.lo
  greatest : ∃ x, A.Mem x ∧ f x = r.hi

variable {W : Nat}

/-- No smaller range has all of the results. -/
theorem TightFor.smallest {op : BInt → BInt → Option (Res BInt)} {f : Int → Int → Int} {ok : Int → Int → Prop} {A B r q : Rng} (h : TightFor W op f ok A B r)
    (hq : ∀ x y, A.Mem x → B.Mem y → ok x y → q.Mem (f x y)) : q.lo ≤ r.lo ∧ r.hi ≤ q.hi := by
  obtain ⟨x, y, hx, hy, hok, e⟩ := h.least
  obtain ⟨x', y', hx', hy', hok', e'⟩ := h.greatest
  have h1 := hq x y hx hy hok
  have h2 := hq x' y' hx' hy' hok'
  rw [e] at h1
  rw [e'] at h2
  exact ⟨h1.1, h2.2⟩

/-- `a + b`. -/
theorem C88_add (hW : 64 ≤ W) {A B r : Rng} (hA : A.Wf W) (hB : B.Wf W) (hr : plusTy W A B = some r) : TightFor W (plus W) (· + ·) (fun _ _ => True) A B r := by
  have he : r = ⟨A.lo + B.lo, A.hi + B.hi⟩ := by
    rw [plusTy_eq hW hA hB] at hr
    exact (mkInteger_some hW hr).1
  refine ⟨?_, ⟨_, _, lo_mem hW hA, lo_mem hW hB, trivial, by rw [he]⟩, ⟨_, _, hi_mem hW hA, hi_mem hW hB, trivial, by rw [he]⟩⟩
  rintro a b x y ha hb rfl rfl -
  obtain ⟨c, h1, h2, h3, h4, h5⟩ := plus_value hW ha.1 hb.1 hr ha.2 hb.2
  exact yields_of hW ⟨c, h1, h2, h3⟩ h5

/-- `a - b`. -/
theorem C88_sub (hW : 64 ≤ W) {A B r : Rng} (hA : A.Wf W) (hB : B.Wf W) (hr : minusTy W A B = some r) : TightFor W (minus W) (· - ·) (fun _ _ => True) A B r := by
  have hv := fun x y (hx : A.Mem x) (hy : B.Mem y) =>
    minus_value hW (a := A.unchecked W x) (b := B.unchecked W y) hA hB hr (holds_of_mem hW hA hx).1.2 (holds_of_mem hW hB hy).1.2
  obtain ⟨_, -, -, -, he, -⟩ := hv _ _ (lo_mem hW hA) (lo_mem hW hB)
  refine ⟨?_, ⟨_, _, lo_mem hW hA, hi_mem hW hB, trivial, by rw [he]; rfl⟩, ⟨_, _, hi_mem hW hA, lo_mem hW hB, trivial, by rw [he]; rfl⟩⟩
  rintro a b x y ha hb rfl rfl -
  obtain ⟨c, h1, h2, h3, h4, h5⟩ := minus_value hW ha.1 hb.1 hr ha.2 hb.2
  exact yields_of hW ⟨c, h1, h2, h3⟩ h5

/-- `-a`. -/
theorem C88_neg (hW : 64 ≤ W) {A r : Rng} (hA : A.Wf W) (hr : negTy W A = some r) : TightFor1 W (neg W) (- ·) A r := by
  have he : r = ⟨-A.hi, -A.lo⟩ := by
    rw [negTy_eq hW hA] at hr
    exact (mkInteger_some hW hr).1
  refine ⟨?_, ⟨_, hi_mem hW hA, by rw [he]⟩, ⟨_, lo_mem hW hA, by rw [he]⟩⟩
  rintro a x ha rfl
  obtain ⟨c, h1, h2, h3, h4, h5⟩ := neg_value hW ha.1 hr ha.2
  exact yields_of hW ⟨c, h1, h2, h3⟩ h5

/-- `a * b`, for the types for which it is exact (see `C02_mul_types`). -/
theorem C88_mul_partial (hW : 64 ≤ W) {A B : Rng} (hA : A.Wf W) (hB : B.Wf W) (h : ExactFor W (mul W) (· * ·) A B) :
    ∃ r, TightFor W (mul W) (· * ·) (fun _ _ => True) A B r := by
  obtain ⟨hc, hp⟩ := (C02_mul_types hW hA hB).1 h
  have hl : -(2 ^ (W - 1)) ≤ (mulRange A B).lo := by
    simp only [List.mem_cons, List.not_mem_nil, or_false, forall_eq_or_imp, forall_eq] at hp
    unfold mulRange; simp only; omega
  obtain ⟨r, hr⟩ := Option.ne_none_iff_exists'.1 hc
  have go : ∀ a b x y, Holds W a x → Holds W b y → a.rng = A → b.rng = B → Yields (mul W a b) r (x * y) := by
    rintro a b x y ha hb rfl rfl
    obtain ⟨c, h1, h2, h3, h4, h5⟩ := mul_value hW ha.1 hb.1 hl hr ha.2 hb.2
    exact yields_of hW ⟨c, h1, h2, h3⟩ h5
  have ha := holds_of_mem hW hA (lo_mem hW hA)
  have hb := holds_of_mem hW hB (lo_mem hW hB)
  obtain ⟨r', ⟨c, e1, e2, -⟩, ⟨u, v, hu, hv, e⟩, ⟨u', v', hu', hv', e'⟩⟩ := C02_mul_exact_partial hW ha.1 hb.1 (by
    obtain ⟨c, e1, -⟩ := go _ _ _ _ ha.1 hb.1 rfl rfl
    rw [e1]; simp) hp
  obtain ⟨c', e1', e2', -⟩ := go _ _ _ _ ha.1 hb.1 rfl rfl
  rw [e1] at e1'
  cases e1'
  rw [e2] at e2'
  subst e2'
  exact ⟨r', fun a b x y ha hb h1 h2 _ => go a b x y ha hb h1 h2, ⟨u, v, hu, hv, trivial, e.symm⟩, ⟨u', v', hu', hv', trivial, e'.symm⟩⟩

/-! ## Division -/

theorem dividesRange_attained (hW : 64 ≤ W) {l r : Rng} {p : Int × Int} (hl : Rep W l.lo ∧ Rep W l.hi) (hr : Rep W r.lo ∧ Rep W r.hi)
    (hlim : l.hi < 2 ^ (W - 1) ∨ 0 < r.lo) (hlle : l.lo ≤ l.hi) (hrle : r.lo ≤ r.hi) (hz : r.lo ≠ 0 ∧ r.hi ≠ 0) (h : dividesRange W l r = some p) :
    (∃ x y, l.Mem x ∧ r.Mem y ∧ y ≠ 0 ∧ x.tdiv y = p.1) ∧ ∃ x y, l.Mem x ∧ r.Mem y ∧ y ≠ 0 ∧ x.tdiv y = p.2 := by
  have ⟨h1, h2⟩ := pow_facts hW
  have r1 : Rep W 1 := by unfold Rep; omega
  have rm1 : Rep W (-1) := by unfold Rep; omega
  have posCase : ∀ (s : Rng) (q : Int × Int), Rep W s.lo ∧ Rep W s.hi → 1 ≤ s.lo → s.lo ≤ s.hi → positiveDivisorDivision W l s = some q →
      (∃ x y, l.Mem x ∧ s.Mem y ∧ y ≠ 0 ∧ x.tdiv y = q.1) ∧ ∃ x y, l.Mem x ∧ s.Mem y ∧ y ≠ 0 ∧ x.tdiv y = q.2 := by
    intro s q hs hs1 hle hq
    unfold positiveDivisorDivision at hq
    dsimp only at hq
    rw [saferDiv_eq hW hl.1 (by split <;> first | exact hs.1 | exact hs.2) (by split <;> omega) (by right; split <;> omega),
      saferDiv_eq hW hl.2 (by split <;> first | exact hs.1 | exact hs.2) (by split <;> omega) (by right; split <;> omega)] at hq
    simp at hq
    subst hq
    exact ⟨⟨_, _, ⟨le_rfl, hlle⟩, by unfold Rng.Mem; split <;> omega, by split <;> omega, rfl⟩,
      ⟨_, _, ⟨hlle, le_rfl⟩, by unfold Rng.Mem; split <;> omega, by split <;> omega, rfl⟩⟩
  have negCase : ∀ (s : Rng) (q : Int × Int), Rep W s.lo ∧ Rep W s.hi → s.hi ≤ -1 → s.lo ≤ s.hi → l.hi < 2 ^ (W - 1) → negativeDivisorDivision W l s = some q →
      (∃ x y, l.Mem x ∧ s.Mem y ∧ y ≠ 0 ∧ x.tdiv y = q.1) ∧ ∃ x y, l.Mem x ∧ s.Mem y ∧ y ≠ 0 ∧ x.tdiv y = q.2 := by
    intro s q hs hs1 hle hlm hq
    unfold negativeDivisorDivision at hq
    dsimp only at hq
    rw [saferDiv_eq hW hl.2 (by split <;> first | exact hs.1 | exact hs.2) (by split <;> omega) (by left; omega),
      saferDiv_eq hW hl.1 (by split <;> first | exact hs.1 | exact hs.2) (by split <;> omega) (by left; omega)] at hq
    simp at hq
    subst hq
    exact ⟨⟨_, _, ⟨hlle, le_rfl⟩, by unfold Rng.Mem; split <;> omega, by split <;> omega, rfl⟩,
      ⟨_, _, ⟨le_rfl, hlle⟩, by unfold Rng.Mem; split <;> omega, by split <;> omega, rfl⟩⟩
  unfold dividesRange at h
  split at h
  · exact posCase r p hr (by omega) hrle h
  · split at h
    · exact negCase r p hr (by omega) hrle (by omega) h
    · simp only [Option.bind_eq_bind, Option.bind_eq_some_iff, Option.pure_def, Option.some.injEq] at h
      obtain ⟨q1, e1, q2, e2, rfl⟩ := h
      have rp := posDiv_rep hW hl (r := ⟨1, r.hi⟩) ⟨r1, hr.2⟩ e1
      have rn := negDiv_rep hW hl (r := ⟨r.lo, -1⟩) ⟨hr.1, rm1⟩ e2
      obtain ⟨⟨x1, y1, a1, b1, c1, d1⟩, ⟨x2, y2, a2, b2, c2, d2⟩⟩ := posCase ⟨1, r.hi⟩ q1 ⟨r1, hr.2⟩ (by simp) (by simp only; omega) e1
      obtain ⟨⟨x3, y3, a3, b3, c3, d3⟩, ⟨x4, y4, a4, b4, c4, d4⟩⟩ := negCase ⟨r.lo, -1⟩ q2 ⟨hr.1, rm1⟩ (by simp) (by simp only; omega) (by omega) e2
      simp only [Rng.Mem] at b1 b2 b3 b4
      simp only
      rw [safeMin_eq hW rp.1 rn.1, safeMax_eq hW rp.2 rn.2]
      constructor
      · rcases min_choice q1.1 q2.1 with e | e
        · exact ⟨x1, y1, a1, by unfold Rng.Mem; omega, c1, by rw [e, d1]⟩
        · exact ⟨x3, y3, a3, by unfold Rng.Mem; omega, c3, by rw [e, d3]⟩
      · rcases max_choice q1.2 q2.2 with e | e
        · exact ⟨x2, y2, a2, by unfold Rng.Mem; omega, c2, by rw [e, d2]⟩
        · exact ⟨x4, y4, a4, by unfold Rng.Mem; omega, c4, by rw [e, d4]⟩

/-- `a / b`, which is defined for divisors that are not zero. -/
theorem C88_div (hW : 64 ≤ W) {A B r : Rng} {t : CTy} (hA : A.Wf W) (hB : B.Wf W) (hr : divTy W A B = some (r, t)) :
    TightFor W (div W) Int.tdiv (fun _ y => y ≠ 0) A B r := by
  have key : (∃ x y, A.Mem x ∧ B.Mem y ∧ y ≠ 0 ∧ x.tdiv y = r.lo) ∧ ∃ x y, A.Mem x ∧ B.Mem y ∧ y ≠ 0 ∧ x.tdiv y = r.hi := by
    have ra := hA.rep hW
    have rb := hB.rep hW
    have hr' := hr
    unfold divTy at hr'
    split at hr'
    · simp at hr'
    rename_i hz
    simp only [Option.bind_eq_bind, Option.bind_eq_some_iff, Option.pure_def, Option.some.injEq, Prod.mk.injEq] at hr'
    obtain ⟨p, hp, r', hr', t', ht', rfl, rfl⟩ := hr'
    have rp := dividesRange_rep hW ra rb hp
    rw [safeMin_eq hW rp.1 ra.1, safeMin_eq hW (rep_min hW rp.1 ra.1) rb.1, safeMax_eq hW rp.2 ra.2, safeMax_eq hW (rep_max hW rp.2 ra.2) rb.2] at ht'
    have hale := ((wf_iff hW _).mp hA).1
    have hble := ((wf_iff hW _).mp hB).1
    have hs := mkInteger_some hW hr'
    have hsto := (determineType_isSome hW (rep_min hW (rep_min hW rp.1 ra.1) rb.1) (rep_max hW (rep_max hW rp.2 ra.2) rb.2) (by omega)).mp (by rw [ht']; rfl)
    rw [hs.1]
    exact dividesRange_attained hW ra rb (by unfold Storable at hsto; omega) hale hble (by omega) hp
  refine ⟨?_, key.1, key.2⟩
  rintro a b x y ha hb rfl rfl hy
  obtain ⟨c, h1, h2, h3, h5⟩ := (div_value hW ha.1 hb.1 hr ha.2 hb.2).1 hy
  exact yields_of hW ⟨c, h1, h2, h3⟩ h5

/-! ## Shifts -/

theorem wrap_smax (hW : 64 ≤ W) {v : Int} (h : -(2 ^ (W - 1)) ≤ v ∧ v < 2 ^ (W - 1)) : (smax W).wrap v = v := by
  refine CTy.wrap_of_fits (by show 1 ≤ W; omega) ?_
  unfold CTy.Fits CTy.lo CTy.hi smax
  simp only [if_true]
  omega

/-- `a << b`, for the types for which it is exact (see `C07_shl_types`). -/
theorem C88_shl_partial (hW : 64 ≤ W) (hW2 : W ≤ 128) {A B : Rng} (hA : A.Wf W) (hB : B.Wf W) (h : ExactFor W (shl W) (fun x y => x * 2 ^ y.toNat) A B) :
    ∃ r, TightFor W (shl W) (fun x y => x * 2 ^ y.toNat) (fun _ _ => True) A B r := by
  obtain ⟨hc, h1, h2, h3, h4⟩ := (C07_shl_types hW hW2 hA hB).1 h
  obtain ⟨⟨r, t⟩, hr⟩ := Option.ne_none_iff_exists'.1 hc
  obtain ⟨b0, bW, e, hwf, -⟩ := shlTy_some hW hA hB hr
  have la := ((wf_iff hW _).mp hA).1
  have lb := ((wf_iff hW _).mp hB).1
  have ra := hA.rep hW
  have ⟨p1, p2⟩ := pow_facts hW
  have pl := CTy.two_pow_pos B.lo.toNat
  have ph := CTy.two_pow_pos B.hi.toNat
  have hpow : (2 : Int) ^ B.lo.toNat ≤ 2 ^ B.hi.toNat := CTy.two_pow_le (by omega)
  unfold Rep at ra
  have hiA : A.hi < 2 ^ (W - 1) := by
    rcases le_or_gt 0 A.hi with g | g
    · nlinarith
    · omega
  have lo2 : A.lo * 2 ^ B.lo.toNat < 2 ^ (W - 1) := by
    rcases h1 with g | g
    · nlinarith
    · rw [g]; nlinarith
  have hi2 : -(2 ^ (W - 1)) ≤ A.hi * 2 ^ B.hi.toNat := by
    rcases h1 with g | g
    · nlinarith
    · rw [← g]; nlinarith
  have w1 : (smax W).wrap A.lo = A.lo := wrap_smax hW (by omega)
  have w2 : (smax W).wrap A.hi = A.hi := wrap_smax hW (by omega)
  rw [w1, w2, wrap_smax hW ⟨h2, lo2⟩, wrap_smax hW ⟨hi2, h3⟩] at e
  refine ⟨r, ?_, ⟨_, _, lo_mem hW hA, lo_mem hW hB, trivial, by rw [e]⟩, ⟨_, _, hi_mem hW hA, hi_mem hW hB, trivial, by rw [e]⟩⟩
  rintro a b x y ha hb rfl rfl -
  obtain ⟨r', c, c1, c2, c3, c4⟩ := h a b x y ha hb rfl rfl
  have : c.rng = r := by
    unfold shl at c1
    rw [hr] at c1
    simp only [Option.bind_eq_bind, Option.bind_some, Option.pure_def, Option.some.injEq, ha.2, hb.2, Res.ok_bind] at c1
    cases hq : (t.promote.shl (t.wrap x) (t.wrap y)) with
    | ok q => rw [hq] at c1; cases c1; rfl
    | ub => rw [hq] at c1; cases c1
    | exn => rw [hq] at c1; cases c1
  exact yields_of hW ⟨c, c1, this, c3⟩ hwf

/-- `a >> b`, for the types for which it is exact (see `C07_shr_types`). -/
theorem C88_shr_partial (hW : 64 ≤ W) (hW2 : W ≤ 128) {A B : Rng} (hA : A.Wf W) (hB : B.Wf W) (h : ExactFor W (shr W) (fun x y => x / 2 ^ y.toNat) A B) :
    ∃ r, TightFor W (shr W) (fun x y => x / 2 ^ y.toNat) (fun _ _ => True) A B r := by
  obtain ⟨hc, h1, h2, h3, h4⟩ := (C07_shr_types hW hW2 hA hB).1 h
  obtain ⟨⟨r, t⟩, hr⟩ := Option.ne_none_iff_exists'.1 hc
  obtain ⟨b0, bW, e, hwf, -⟩ := shrTy_some hW hr
  have la := ((wf_iff hW _).mp hA).1
  have wa := ((wf_iff hW _).mp hA).2
  have lb := ((wf_iff hW _).mp hB).1
  have ra := hA.rep hW
  unfold Rep at ra
  have w1 : (smax W).wrap A.lo = A.lo := wrap_smax hW (by omega)
  have w2 : (smax W).wrap A.hi = A.hi := wrap_smax hW (by omega)
  rw [w1, w2] at e
  refine ⟨r, ?_, ⟨_, _, lo_mem hW hA, hi_mem hW hB, trivial, by rw [e]⟩, ⟨_, _, hi_mem hW hA, lo_mem hW hB, trivial, by rw [e]⟩⟩
  rintro a b x y ha hb rfl rfl -
  obtain ⟨r', c, c1, c2, c3, c4⟩ := h a b x y ha hb rfl rfl
  have : c.rng = r := by
    unfold shr at c1
    rw [hr] at c1
    simp only [Option.bind_eq_bind, Option.bind_some, Option.pure_def, Option.some.injEq, ha.2, hb.2, Res.ok_bind] at c1
    cases hq : (t.promote.shr (t.wrap x) (t.wrap y)) with
    | ok q => rw [hq] at c1; cases c1; rfl
    | ub => rw [hq] at c1; cases c1
    | exn => rw [hq] at c1; cases c1
  exact yields_of hW ⟨c, c1, this, c3⟩ hwf

/-! ## Functions -/

/-- `abs(a)`. -/
theorem C88_abs (hW : 64 ≤ W) {A : Rng} (hA : A.Wf W) (hc : ∀ a x, Holds W a x → a.rng = A → abs W a ≠ none) : ∃ r, TightFor1 W (abs W) (fun x => |x|) A r := by
  have la := ((wf_iff hW _).mp hA).1
  refine ⟨if 0 ≤ A.lo then A else if A.hi ≤ 0 then ⟨-A.hi, -A.lo⟩ else ⟨0, max A.hi (-A.lo)⟩, ?_, ?_, ?_⟩
  · rintro a x ha rfl
    obtain ⟨c, h1, h2, h3⟩ := abs_value hW ha (hc a x ha rfl)
    rw [← h3]
    exact yields_of_holds hW h1 h2
  · split
    · exact ⟨_, lo_mem hW hA, abs_of_nonneg (by omega)⟩
    · split
      · exact ⟨_, hi_mem hW hA, abs_of_nonpos (by omega)⟩
      · exact ⟨0, ⟨by omega, by omega⟩, by simp⟩
  · split
    · exact ⟨_, hi_mem hW hA, abs_of_nonneg (by omega)⟩
    · split
      · exact ⟨_, lo_mem hW hA, abs_of_nonpos (by omega)⟩
      · rcases max_choice A.hi (-A.lo) with e | e
        · exact ⟨_, hi_mem hW hA, by simp only [e]; exact abs_of_nonneg (by omega)⟩
        · exact ⟨_, lo_mem hW hA, by simp only [e]; exact abs_of_nonpos (by omega)⟩

/-- `min` (`s = less`) and `max` (`s = greater`) of any number of arguments. -/
theorem C88_minmax (hW : 64 ≤ W) (s : Cmp) {T : Rng} {Ts : List Rng} (hT : T.Wf W) (hTs : ∀ A ∈ Ts, A.Wf W) :
    ∃ r : Rng, (∀ t ts x xs, Holds W t x → List.Forall₂ (Holds W) ts xs → t.rng = T → ts.map (·.rng) = Ts → Yields (extreme W s t ts) r (xs.foldl s.op x)) ∧
      (∃ x xs, T.Mem x ∧ List.Forall₂ Rng.Mem Ts xs ∧ xs.foldl s.op x = r.lo) ∧ ∃ x xs, T.Mem x ∧ List.Forall₂ Rng.Mem Ts xs ∧ xs.foldl s.op x = r.hi := by
  refine ⟨⟨(Ts.map (·.lo)).foldl s.op T.lo, (Ts.map (·.hi)).foldl s.op T.hi⟩, ?_, ⟨_, _, lo_mem hW hT, ?_, rfl⟩, ⟨_, _, hi_mem hW hT, ?_, rfl⟩⟩
  · rintro t ts x xs ht hts rfl rfl
    obtain ⟨c, h1, h2, h3⟩ := extreme_value hW s ht hts
    have := yields_of_holds hW h1 h2
    rw [h3] at this
    simpa [List.map_map, Function.comp_def] using this
  · rw [List.forall₂_map_right_iff, List.forall₂_same]
    exact fun A hA => lo_mem hW (hTs A hA)
  · rw [List.forall₂_map_right_iff, List.forall₂_same]
    exact fun A hA => hi_mem hW (hTs A hA)

/-- `clamp(a, minimum, maximum)`. -/
theorem C88_clamp (hW : 64 ≤ W) {A L H : Rng} (hA : A.Wf W) (hL : L.Wf W) (hH : H.Wf W) :
    ∃ r : Rng, (∀ a l h x y z, Holds W a x → Holds W l y → Holds W h z → a.rng = A → l.rng = L → h.rng = H → Yields (clamp W a l h) r (min (max x y) z)) ∧
      (∃ x y z, A.Mem x ∧ L.Mem y ∧ H.Mem z ∧ min (max x y) z = r.lo) ∧ ∃ x y z, A.Mem x ∧ L.Mem y ∧ H.Mem z ∧ min (max x y) z = r.hi := by
  refine ⟨⟨min (max A.lo L.lo) H.lo, min (max A.hi L.hi) H.hi⟩, ?_, ⟨_, _, _, lo_mem hW hA, lo_mem hW hL, lo_mem hW hH, rfl⟩,
    ⟨_, _, _, hi_mem hW hA, hi_mem hW hL, hi_mem hW hH, rfl⟩⟩
  rintro a l h x y z ha hl hh rfl rfl rfl
  obtain ⟨c, h1, h2, h3⟩ := extreme_value hW .greater ha (List.Forall₂.cons hl .nil)
  obtain ⟨d, e1, e2, e3⟩ := extreme_value hW .less h2 (List.Forall₂.cons hh .nil)
  have : clamp W a l h = some (.ok d) := by
    unfold clamp
    rw [h1]
    exact e1
  have hy := yields_of_holds hW this e2
  rw [e3, h3] at hy
  exact hy

/-- `log(a, b)`. -/
theorem C88_log (hW : 64 ≤ W) {bw : Bool} {A B : Rng} (hA : A.Wf W) (hB : B.Wf W) (hc : ∀ a b, a.rng = A → b.rng = B → log W bw a b ≠ none) :
    ∃ r, TightFor W (log W bw) (fun x y => Nat.log y.toNat x.toNat) (fun _ _ => True) A B r := by
  refine ⟨⟨Nat.log B.hi.toNat A.lo.toNat, Nat.log B.lo.toNat A.hi.toNat⟩, ?_, ⟨_, _, lo_mem hW hA, hi_mem hW hB, trivial, rfl⟩,
    ⟨_, _, hi_mem hW hA, lo_mem hW hB, trivial, rfl⟩⟩
  rintro a b x y ha hb rfl rfl -
  obtain ⟨-, -, c, c1, c2, c3⟩ := log_spec hW ha hb (hc a b rfl rfl)
  rw [← c3]
  exact yields_of_holds hW c1 c2

/-- `pow(a, b)`. -/
theorem C88_pow (hW : 64 ≤ W) {A B : Rng} (hA : A.Wf W) (hB : B.Wf W) (hc : ∀ a b, a.rng = A → b.rng = B → pow W a b ≠ none) :
    ∃ r, TightFor W (pow W) (fun x y => x ^ y.toNat) (fun _ _ => True) A B r := by
  refine ⟨⟨A.lo ^ B.lo.toNat, A.hi ^ B.hi.toNat⟩, ?_, ⟨_, _, lo_mem hW hA, lo_mem hW hB, trivial, rfl⟩,
    ⟨_, _, hi_mem hW hA, hi_mem hW hB, trivial, rfl⟩⟩
  rintro a b x y ha hb rfl rfl -
  exact (C17_pow_exact hW ha hb (hc a b rfl rfl)).2.2.2

/-! ## Ranges that are not as small as possible -/

/-- `17 & 1` is always 1, but its type is `integer<0, 1>`. -/
theorem C88_and_violated : ¬ ∃ r, TightFor 128 (bitAnd 128) Int.land (fun _ _ => True) ⟨17, 17⟩ ⟨1, 1⟩ r := by
  rintro ⟨r, h⟩
  have hx : Holds 128 ⟨⟨17, 17⟩, 0⟩ 17 := by unfold Holds; decide +kernel
  have hy : Holds 128 ⟨⟨1, 1⟩, 0⟩ 1 := by unfold Holds; decide +kernel
  obtain ⟨c, c1, c2, -⟩ := h.exact _ _ _ _ hx hy rfl rfl trivial
  have e : bitAnd 128 ⟨⟨17, 17⟩, 0⟩ ⟨⟨1, 1⟩, 0⟩ = some (.ok ⟨⟨0, 1⟩, 1⟩) := by decide +kernel
  rw [e] at c1
  cases c1
  obtain ⟨x, y, mx, my, -, e⟩ := h.least
  obtain rfl : x = 17 := by unfold Rng.Mem at mx; simp only at mx; omega
  obtain rfl : y = 1 := by unfold Rng.Mem at my; simp only at my; omega
  rw [← c2] at e
  revert e
  decide +kernel

/-- `round_up_divide` adds the divisor to the dividend and does not take into account that it divides by the same value: for a dividend up to 10 and a divisor
up to 10 the type is `integer<0, 19>`, but no result is above 10. -/
theorem C88_round_up_divide_violated : ¬ ∃ r, TightFor 128 (roundUpDivide 128) (fun x y => -(-x / y)) (fun _ _ => True) ⟨0, 10⟩ ⟨1, 10⟩ r := by
  rintro ⟨r, h⟩
  have hx : Holds 128 ⟨⟨0, 10⟩, 7⟩ 7 := by unfold Holds; decide +kernel
  have hy : Holds 128 ⟨⟨1, 10⟩, 2⟩ 2 := by unfold Holds; decide +kernel
  obtain ⟨c, c1, c2, -⟩ := h.exact _ _ _ _ hx hy rfl rfl trivial
  have e : roundUpDivide 128 ⟨⟨0, 10⟩, 7⟩ ⟨⟨1, 10⟩, 2⟩ = some (.ok ⟨⟨0, 19⟩, 4⟩) := by decide +kernel
  rw [e] at c1
  cases c1
  obtain ⟨x, y, mx, my, -, e⟩ := h.greatest
  rw [← c2] at e
  unfold Rng.Mem at mx my
  simp only at mx my e
  have : -x / y ≥ -x := Int.le_ediv_of_mul_le (by omega) (by nlinarith)
  omega

/-! ## Examples -/

example : TightFor 128 (plus 128) (· + ·) (fun _ _ => True) ⟨-5, 10⟩ ⟨0, 255⟩ ⟨-5, 265⟩ := C88_add (by decide) (by decide +kernel) (by decide +kernel) (by decide +kernel)

/-- A divisor type that has zero inside: the bounds are those for the divisors -1 and 1. -/
example : TightFor 128 (div 128) Int.tdiv (fun _ y => y ≠ 0) ⟨-5, 10⟩ ⟨-7, 3⟩ ⟨-10, 10⟩ := C88_div (t := ⟨true, 8⟩) (by decide) (by decide +kernel) (by decide +kernel) (by decide +kernel)

/-- A divisor type whose greatest value is -1. -/
example : TightFor 128 (div 128) Int.tdiv (fun _ y => y ≠ 0) ⟨4, 10⟩ ⟨-3, -1⟩ ⟨-10, -1⟩ := C88_div (t := ⟨true, 8⟩) (by decide) (by decide +kernel) (by decide +kernel) (by decide +kernel)

example : ∃ r, TightFor 128 (mul 128) (· * ·) (fun _ _ => True) ⟨-5, 10⟩ ⟨-3, 255⟩ r :=
  C88_mul_partial (by decide) (by decide +kernel) (by decide +kernel) ((C02_mul_types (by decide) (by decide +kernel) (by decide +kernel)).2 (by decide +kernel))

example : ∃ r, TightFor1 128 (abs 128) (fun x => |x|) ⟨-10, 4⟩ r := C88_abs (by decide) (by decide +kernel) (by
  rintro ⟨_, v⟩ x h rfl
  have := h.2
  simp only [BInt.value] at this
  split at this
  · contradiction
  · split at this
    · rename_i h1
      replace h1 : -10 ≤ v ∧ v ≤ 4 := h1
      have : v = -10 ∨ v = -9 ∨ v = -8 ∨ v = -7 ∨ v = -6 ∨ v = -5 ∨ v = -4 ∨ v = -3 ∨ v = -2 ∨ v = -1 ∨ v = 0 ∨ v = 1 ∨ v = 2 ∨ v = 3 ∨ v = 4 := by omega
      rcases this with rfl | rfl | rfl | rfl | rfl | rfl | rfl | rfl | rfl | rfl | rfl | rfl | rfl | rfl | rfl <;> decide +kernel
    · cases this)

end Verif.Bounded
