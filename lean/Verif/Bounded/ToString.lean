import Verif.Bounded.ToInteger
import Mathlib.Data.Nat.Digits.Lemmas

/-!
# `to_any_string` (property C16)

The result string is the list of its `char` codes; `push_back` and `reverse` on the
result container act on that list (those containers are the subject of other modules).
-/

namespace Verif.Bounded

open Verif

/-- source/containers/to_any_string.cpp 22-25: the `do ... while` loop; `acc` is the
result so far. `fuel` bounds the number of iterations, running out of it is reported as
`.ub`; C16 shows that this does not happen. -/
def toStringLoop (W : Nat) : Nat → BInt → List Int → Option (Res (List Int))
  | 0, _, _ => some .ub
  | fuel + 1, x, acc =>
    thenB (mod W x (constB 10)) fun m =>
      thenB (plus W m (constB 48)) fun ch =>
        thenB (compound W div x (constB 10)) fun x' => do
          match compareB W x' (constB 0), ch.value with
          | .ok o, .ok c =>
            let acc' := acc ++ [(CTy.mk true 8).wrap c]
            if o = .gt then toStringLoop W fuel x' acc' else some (.ok acc')
          | .ub, _ => some .ub
          | _, .ub => some .ub
          | _, _ => some .exn

/-- source/containers/to_any_string.cpp 33-36 `include_zero`. -/
def includeZero (W : Nat) (b : BInt) : Option (Res BInt) := do
  convert W (← mkInteger W 0 b.rng.hi) b

/-- source/containers/to_any_string.cpp 19-31, 38-41 `to_any_string(x)`. -/
def toAnyString (W : Nat) (x : BInt) : Option (Res (List Int)) :=
  thenB (abs W x) fun a =>
    thenB (includeZero W a) fun z => do
      match compareB W x (constB 0), z.value with
      | .ok o, .ok v =>
        match ← toStringLoop W (v.toNat + 1) z [] with
        | .ok s => some (.ok ((if o = .lt then s ++ [45] else s).reverse))
        | .ub => some .ub
        | .exn => some .exn
      | _, _ => some .ub

/-! ## Specification -/

/-- The decimal digits of `n` without leading zeros, most significant first. -/
def decimal (n : Nat) : List Nat := if n = 0 then [0] else (Nat.digits 10 n).reverse

/-- The canonical decimal representation of `v`. -/
def canonical (v : Int) : List Int :=
  (if v < 0 then [45] else []) ++ (decimal v.natAbs).map fun d : Nat => 48 + (d : Int)

section
variable {W : Nat}

theorem modTy_ten (hW : 64 ≤ W) {M : Int} (hwf : (Rng.mk 0 M).Wf W) :
    ∃ r t, modTy W ⟨0, M⟩ ⟨10, 10⟩ = some (r, t) ∧ 0 ≤ r.lo ∧ r.hi ≤ 9 := by
  have ⟨p1, p2⟩ := pow_facts hW
  have w := (wf_iff hW _).mp hwf
  simp only at w
  have hMc : ((2 ^ W : Nat) : Int) = 2 ^ W := by push_cast; rfl
  have hM : 0 ≤ M ∧ M < 2 ^ W := by unfold Storable at w; omega
  have r10 : Rep W 10 := by unfold Rep; omega
  have wr : ∀ v : Int, 0 ≤ v → v < 2 ^ W → (umax W).wrap v = v := by
    intro v h1 h2; rw [umax_wrap, Int.emod_eq_of_lt h1 h2]
  have neg0 : signFreeValue (2 ^ W) 0 0 10 10 = some (0, 0) := by
    unfold signFreeValue; rw [if_pos (by omega)]
  obtain ⟨q, q1, q2, q3, q4⟩ := signFreeValue_spec (M := 2 ^ W) (dl := 0) (dh := M.toNat) (ml := 10) (mh := 10)
    (by omega) (by omega) (by omega) (by omega) (by omega) (by omega)
  have lt9 : ∀ v, Attained 0 M.toNat 10 10 v → v ≤ 9 := by
    rintro v ⟨n, m, _, _, h1, h2, rfl⟩
    have : m = 10 := by omega
    subst this
    omega
  have l1 := lt9 _ q3
  have l2 := lt9 _ q4
  have qle : q.1 ≤ q.2 := by
    have := q2 0 10 (by omega) (by omega) (by omega) (by omega); omega
  have sw : ∀ n : Nat, n ≤ 9 → (smax W).wrap (n : Int) = n := fun n h => smax_wrap_of hW (by omega) (by omega)
  have hrange : modulusRange W ⟨0, M⟩ ⟨10, 10⟩ = some ((q.1 : Int), if 0 < M then (q.2 : Int) else 0) := by
    unfold modulusRange
    simp only [safeAbs_eq hW r10, wr 10 (by omega) (by omega)]
    simp only [show (10 : Int) > 0 by decide, if_true]
    have e1 : (max (0 : Int) 0) = 0 := rfl
    have e2 : max M 0 = M := by omega
    have e3 : ¬ M < 0 := by omega
    have e4 : ¬ ((0 : Int) < 0) := by omega
    have e5 : max |(10 : Int)| |10| = 10 := rfl
    simp only [e1, e2, e3, e4, e5, if_false, wr 0 (by omega) (by omega), wr M hM.1 hM.2]
    have t0 : Int.toNat 0 = 0 := rfl
    have t10 : Int.toNat 10 = 10 := rfl
    simp only [t0, t10, neg0, q1, Option.bind_eq_bind, Option.bind_some, decide_false, Bool.false_eq_true,
      false_and, if_false, false_or]
    have c1 : (q.1 : Int) ≤ 2 ^ (W - 1) - 1 := by omega
    have c2 : (q.2 : Int) ≤ 2 ^ (W - 1) - 1 := by omega
    simp only [smax_hi, c1, c2, or_true, if_true, sw _ l1, sw _ l2]
    by_cases hM0 : 0 < M
    · simp [hM0]
    · have hM00 : M = 0 := by omega
      subst hM00
      simp
      have e6 : negSmax W 0 = some 0 := by
        unfold negSmax
        have : (smax W).wrap ((0 : Nat) : Int) = 0 := sw 0 (by omega)
        rw [this]
        rw [if_pos (by unfold CTy.Fits; rw [smax_lo, smax_hi]; omega)]
        rfl
      rw [e6]
      simp
      exact sw 0 (by omega)
  have hhi : ∃ h : Int, (if 0 < M then (q.2 : Int) else 0) = h ∧ h ≤ 9 ∧ (q.1 : Int) ≤ h := by
    by_cases hM0 : 0 < M
    · exact ⟨q.2, by rw [if_pos hM0], by omega, by omega⟩
    · refine ⟨0, by rw [if_neg hM0], by omega, ?_⟩
      have : q.1 ≤ 0 % 10 := (q2 0 10 (by omega) (by omega) (by omega) (by omega)).1
      omega
  obtain ⟨h, hh1, hh2, hh3⟩ := hhi
  rw [hh1] at hrange
  have hmk : mkInteger W q.1 h = some ⟨q.1, h⟩ := by
    rw [mkInteger_eq hW, if_pos (by unfold Storable; omega)]
  have hc3 : ∃ c, commonType3 W ⟨q.1, h⟩ ⟨0, M⟩ ⟨10, 10⟩ = some c := by
    unfold commonType3 commonType
    have rr := (wf_of_mk hW hmk).rep hW
    have rm := hwf.rep hW
    simp only at rr rm ⊢
    rw [safeMin_eq hW rr.1 rm.1, safeMax_eq hW rr.2 rm.2, mkInteger_eq hW, if_pos (by unfold Storable; omega)]
    simp only [Option.bind_eq_bind, Option.bind_some]
    rw [safeMin_eq hW (by unfold Rep; omega) r10, safeMax_eq hW (by unfold Rep; omega) r10, mkInteger_eq hW,
      if_pos (by unfold Storable; omega)]
    exact ⟨_, rfl⟩
  obtain ⟨c, hc⟩ := hc3
  refine ⟨⟨q.1, h⟩, c.under W, ?_, by simp only; omega, hh2⟩
  unfold modTy
  rw [hrange]
  simp only [Option.bind_eq_bind, Option.bind_some, hmk, hc]
  rfl

theorem mod_ten (hW : 64 ≤ W) {a : BInt} {x M : Int} (ha : Holds W a x) (hr : a.rng = ⟨0, M⟩) :
    ∃ c, mod W a (constB 10) = some (.ok c) ∧ Holds W c (x % 10) ∧ 0 ≤ c.rng.lo ∧ c.rng.hi ≤ 9 := by
  have ⟨p1, p2⟩ := pow_facts hW
  have r10 : Rep W 10 := by unfold Rep; omega
  have hwf : (Rng.mk 0 M).Wf W := by rw [← hr]; exact ha.1
  have mx := value_mem ha.2 ((wf_iff hW _).mp ha.1).1
  rw [hr] at mx
  unfold Rng.Mem at mx
  simp only at mx
  obtain ⟨r, t, h1, h2, h3⟩ := modTy_ten hW hwf
  have h1' : modTy W a.rng (constB 10).rng = some (r, t) := by rw [hr]; exact h1
  have hc : mod W a (constB 10) ≠ none := by unfold mod; rw [h1']; simp
  obtain ⟨r', c, c1, c2, c3, _⟩ := C05_mod_exact_partial hW ha (constB_holds hW r10) hc (by omega) (by omega)
  have hcr : c.rng = r := by
    unfold mod at c1
    rw [h1'] at c1
    simp only [Option.bind_eq_bind, Option.bind_some, Option.pure_def, Option.some.injEq] at c1
    simp only [Res.bind_eq_ok] at c1
    obtain ⟨_, _, _, _, _, _, h⟩ := c1
    simp only [Res.pure_def, Res.ok.injEq] at h
    rw [← h]; rfl
  have hrw := (modTy_some hW ha.1 (constB_holds hW r10).1 h1').2.1
  refine ⟨c, c1, ⟨by rw [hcr]; exact hrw, ?_⟩, by rw [hcr]; exact ⟨h2, h3⟩⟩
  rw [c3, Int.tmod_eq_emod_of_nonneg mx.1]

theorem div_ten (hW : 64 ≤ W) {a : BInt} {x M : Int} (ha : Holds W a x) (hr : a.rng = ⟨0, M⟩) :
    ∃ c, div W a (constB 10) = some (.ok c) ∧ Holds W c (x / 10) ∧ c.rng = ⟨0, M / 10⟩ := by
  have ⟨p1, p2⟩ := pow_facts hW
  have r10 : Rep W 10 := by unfold Rep; omega
  have r0 : Rep W 0 := by unfold Rep; omega
  have hwf : (Rng.mk 0 M).Wf W := by rw [← hr]; exact ha.1
  have w := (wf_iff hW _).mp hwf
  have rM := (hwf.rep hW).2
  simp only at w rM
  have hM : 0 ≤ M ∧ M < 2 ^ W := by unfold Storable at w; omega
  have mx := value_mem ha.2 ((wf_iff hW _).mp ha.1).1
  rw [hr] at mx
  unfold Rng.Mem at mx
  simp only at mx
  have e1 : saferDiv W 0 10 = some 0 := by rw [saferDiv_eq hW r0 r10 (by omega) (by omega)]; rfl
  have e2 : saferDiv W M 10 = some (M / 10) := by
    rw [saferDiv_eq hW rM r10 (by omega) (by omega), Int.tdiv_eq_ediv_of_nonneg hM.1]
  have hmk : mkInteger W 0 (M / 10) = some ⟨0, M / 10⟩ := by
    rw [mkInteger_eq hW, if_pos (by unfold Storable; omega)]
  have hd : ∃ t, divTy W a.rng (constB 10).rng = some (⟨0, M / 10⟩, t) := by
    rw [hr]
    unfold divTy dividesRange positiveDivisorDivision
    simp only [constB]
    have d1 : ¬ ((10 : Int) = 0 ∨ (10 : Int) = 0) := by omega
    have d2 : (10 : Int) ≥ 1 := by omega
    have d3 : ¬ ((0 : Int) < 0) := by omega
    simp only [d1, d2, d3, if_true, if_false]
    have : (if M < 0 then (10 : Int) else 10) = 10 := by split <;> rfl
    simp only [this, e1, e2, Option.bind_eq_bind, Option.bind_some, Option.pure_def, hmk]
    have rq : Rep W (M / 10) := by unfold Rep; omega
    rw [safeMin_eq hW r0 r0, safeMin_eq hW (by simpa using r0) r10, safeMax_eq hW rq rM,
      safeMax_eq hW (by unfold Rep; omega) r10]
    have hs := (determineType_isSome hW (lo := min (min 0 0) 10) (hi := max (max (M / 10) M) 10)
      (by unfold Rep; omega) (by unfold Rep; omega) (by omega)).mpr (by unfold Storable; omega)
    obtain ⟨t, ht⟩ := Option.isSome_iff_exists.mp hs
    rw [ht]
    exact ⟨t, rfl⟩
  obtain ⟨t, ht⟩ := hd
  obtain ⟨c, c1, c2, c3, c4⟩ := (div_value hW ha.1 (constB_holds hW r10).1 ht ha.2 (constB_holds hW r10).2).1 (by omega)
  refine ⟨c, c1, ⟨by rw [c2]; exact c4, ?_⟩, c2⟩
  rw [c3, Int.tdiv_eq_ediv_of_nonneg mx.1]

theorem compound_div_ten (hW : 64 ≤ W) {a : BInt} {x M : Int} (ha : Holds W a x) (hr : a.rng = ⟨0, M⟩) :
    ∃ c, compound W div a (constB 10) = some (.ok c) ∧ Holds W c (x / 10) ∧ c.rng = ⟨0, M⟩ := by
  obtain ⟨c, c1, c2, c3⟩ := div_ten hW ha hr
  have mx := value_mem ha.2 ((wf_iff hW _).mp ha.1).1
  rw [hr] at mx
  unfold Rng.Mem at mx
  simp only at mx
  unfold compound
  rw [c1]
  simp only [Option.bind_eq_bind, Option.bind_some]
  have hc : assign W a c ≠ none := by
    intro h
    rw [C12_assign_rejected_iff hW ha c2] at h
    apply h
    rw [hr, c3]
    exact ⟨0, by unfold Rng.Mem; simp only; omega, by unfold Rng.Mem; simp only; omega⟩
  obtain ⟨d, d1, d2, d3⟩ := (assign_spec hW ha c2 hc).1 (by rw [hr]; simp only; omega)
  exact ⟨d, d1, d3, by rw [d2, hr]⟩

theorem toStringLoop_spec (hW : 64 ≤ W) {M : Int} : ∀ (fuel : Nat) (z : BInt) (n : Nat) (acc : List Int),
    Holds W z n → z.rng = ⟨0, M⟩ → n < fuel →
    toStringLoop W fuel z acc =
      some (.ok (acc ++ (decimal n).reverse.map fun d : Nat => 48 + (d : Int)))
  | 0, _, _, _, _, _, h => absurd h (by omega)
  | fuel + 1, z, n, acc, hz, hr, hf => by
    have ⟨p1, p2⟩ := pow_facts hW
    have r0 : Rep W 0 := by unfold Rep; omega
    have r48 : Rep W 48 := by unfold Rep; omega
    obtain ⟨m, m1, m2, m3⟩ := mod_ten hW hz hr
    obtain ⟨ch, c1, c2, c3⟩ := plus_of hW m2 (constB_holds hW r48) (by
      have := ((wf_iff hW _).mp m2.1).1
      simp only [constB]; unfold Storable; omega)
    obtain ⟨z', z1, z2, z3⟩ := compound_div_ten hW hz hr
    obtain ⟨o, o1, _, _, o4⟩ := C09_compare_exact hW z2.1 (constB_holds hW r0).1 z2.2 (constB_holds hW r0).2
    have hwr : (CTy.mk true 8).wrap ((n : Int) % 10 + 48) = (n : Int) % 10 + 48 := by
      apply CTy.wrap_of_fits (by simp)
      unfold CTy.Fits CTy.lo CTy.hi
      norm_num
      omega
    have hq : (n : Int) / 10 = ((n / 10 : Nat) : Int) := by omega
    rw [hq] at z2 o4
    unfold toStringLoop
    rw [m1]
    simp only [thenB_ok]
    rw [c1]
    simp only [thenB_ok]
    rw [z1]
    simp only [thenB_ok, o1, c3.2, hwr]
    by_cases hpos : 0 < n / 10
    · rw [if_pos (o4.mpr (by omega)), toStringLoop_spec hW fuel z' (n / 10) _ z2 z3 (by omega)]
      simp only [Option.some.injEq, Res.ok.injEq, List.append_assoc, List.append_cancel_left_eq]
      unfold decimal
      rw [if_neg (by omega), if_neg (by omega), List.reverse_reverse, List.reverse_reverse,
        Nat.digits_def' (by omega) (show 0 < n by omega), List.map_cons]
      simp only [List.singleton_append, List.cons.injEq, and_true]
      push_cast; omega
    · rw [if_neg (by rw [o4]; omega)]
      simp only [Option.some.injEq, Res.ok.injEq, List.append_cancel_left_eq]
      unfold decimal
      split
      · rename_i h0; subst h0; rfl
      · rw [List.reverse_reverse, Nat.digits_def' (by omega) (show 0 < n by omega),
          show n / 10 = 0 by omega]
        simp
        omega

/-- C16: `to_any_string(x)` of a bounded integer, whenever it compiles, terminates without
undefined behaviour and produces the canonical decimal representation: `-` exactly for
negative numbers, then the digits without leading zeros, `0` for zero. -/
theorem C16_to_string_exact (hW : 64 ≤ W) {b : BInt} {x : Int} (hb : Holds W b x) (hc : abs W b ≠ none) :
    toAnyString W b = some (.ok (canonical x)) := by
  have ⟨p1, p2⟩ := pow_facts hW
  have r0 : Rep W 0 := by unfold Rep; omega
  obtain ⟨a, a1, a2, a3⟩ := abs_value hW hb hc
  replace a3 : 0 ≤ a.rng.lo := by
    rw [a3]
    split
    · assumption
    · split <;> simp only <;> omega
  have wa := (wf_iff hW _).mp a2.1
  have hmk : mkInteger W 0 a.rng.hi = some ⟨0, a.rng.hi⟩ := by
    rw [mkInteger_eq hW, if_pos (by unfold Storable at *; omega)]
  obtain ⟨z, z1, z2, z3⟩ := convert_holds hW (wf_of_mk hW hmk) a2 (by simp only; omega)
  obtain ⟨o, o1, o2, _, _⟩ := C09_compare_exact hW hb.1 (constB_holds hW r0).1 hb.2 (constB_holds hW r0).2
  have z3' : Holds W z ((x.natAbs : Nat) : Int) := by rw [← Int.abs_eq_natAbs]; exact z3
  unfold toAnyString includeZero
  rw [a1]
  simp only [thenB_ok]
  rw [hmk]
  simp only [Option.bind_eq_bind, Option.bind_some]
  rw [z1]
  simp only [thenB_ok, o1, z3'.2, Int.toNat_natCast]
  rw [toStringLoop_spec hW _ z x.natAbs [] z3' z2 (by omega)]
  simp only [Option.bind_some, Option.some.injEq, Res.ok.injEq, List.nil_append]
  unfold canonical
  by_cases hx : x < 0
  · rw [if_pos (o2.mpr hx), if_pos hx, List.reverse_append, ← List.map_reverse, List.reverse_reverse]
    rfl
  · rw [if_neg (by rw [o2]; exact hx), if_neg hx, ← List.map_reverse, List.reverse_reverse]
    rfl

/-- Which types `abs`, and so `to_any_string`, accepts: all but `integer<MIN, max>` with
`MIN` the least value of the widest built-in type and positive `max`. -/
theorem C16_to_string_accepts (hW : 64 ≤ W) {b : BInt} {x : Int} (hb : Holds W b x)
    (h : b.rng.lo ≠ -(2 ^ (W - 1)) ∨ b.rng.hi ≤ 0) : abs W b ≠ none := by
  have ⟨p1, p2⟩ := pow_facts hW
  have w := (wf_iff hW _).mp hb.1
  unfold Storable at w
  have r0 : Rep W 0 := by unfold Rep; omega
  unfold abs
  split
  · simp
  · split
    · obtain ⟨c, c1, _⟩ := neg_of hW hb (by unfold Storable; omega)
      rw [c1]; simp
    · obtain ⟨n, n1, n2, n3⟩ := neg_of hW hb (by unfold Storable; omega)
      rw [n1]
      simp only [Option.bind_eq_bind, Option.bind_some]
      obtain ⟨m, m1, m2, m3⟩ := extreme_value hW .greater hb (List.Forall₂.cons n3 .nil)
      simp only [List.foldl_cons, List.foldl_nil, Cmp.op] at m2
      rw [m1]
      simp only [Option.bind_some]
      obtain ⟨c, c1, _⟩ := increaseMin_value hW m2 r0 (by omega)
      rw [c1]; simp

theorem decimal_spec (n : Nat) : decimal n ≠ [] ∧ (∀ d ∈ decimal n, d < 10) ∧
    Nat.ofDigits 10 (decimal n).reverse = n := by
  unfold decimal
  split
  · rename_i h; subst h; simp
  · rename_i h
    refine ⟨?_, ?_, ?_⟩
    · simp [Nat.digits_ne_nil_iff_ne_zero, h]
    · intro d hd
      rw [List.mem_reverse] at hd
      exact Nat.digits_lt_base (by omega) hd
    · rw [List.reverse_reverse, Nat.ofDigits_digits]

/-- The canonical representation denotes the number. -/
theorem canonical_denotes {minimum x : Int} (h : minimum ≤ x) : Denotes minimum (canonical x) x := by
  obtain ⟨h1, h2, h3⟩ := decimal_spec x.natAbs
  have hn : Numeral ((decimal x.natAbs).map fun d : Nat => 48 + (d : Int)) (x.natAbs : Nat) :=
    ⟨decimal x.natAbs, h1, h2, rfl, by rw [h3]⟩
  unfold canonical
  by_cases hx : x < 0
  · rw [if_pos hx]
    exact Or.inr ⟨by omega, _, _, rfl, hn, by omega⟩
  · rw [if_neg hx]
    left
    rw [show ((x.natAbs : Nat) : Int) = x by omega] at hn
    exact hn

/-- C16: `to_integer<lo, hi>(to_any_string(x))` is `x` for every value of every type for
which both compile. -/
theorem C16_round_trip (hW : 64 ≤ W) {b : BInt} {x : Int} (hb : Holds W b x) (hc : abs W b ≠ none)
    (hM : 10 * maxMagnitude b.rng.lo b.rng.hi + 9 < 2 ^ W) :
    ∃ s, toAnyString W b = some (.ok s) ∧ Yields (toInteger W b.rng.lo b.rng.hi s) b.rng x := by
  have w := (wf_iff hW _).mp hb.1
  have mx := value_mem hb.2 w.1
  unfold Rng.Mem at mx
  refine ⟨canonical x, C16_to_string_exact hW hb hc, ?_⟩
  have hs : ∀ c ∈ canonical x, -128 ≤ c ∧ c ≤ 255 := by
    intro c h
    unfold canonical at h
    rw [List.mem_append] at h
    rcases h with h | h
    · split at h <;> simp at h; omega
    · rw [List.mem_map] at h
      obtain ⟨d, hd, rfl⟩ := h
      have := (decimal_spec x.natAbs).2.1 d hd
      omega
  exact (C15_to_integer_exact hW w.1 hM hs).1 x (canonical_denotes mx.1) mx.1 mx.2

/-- Different values have different strings. -/
theorem C16_to_string_injective {x y : Int} (h : canonical x = canonical y) : x = y := by
  have h1 := canonical_denotes (minimum := min x y) (x := x) (by omega)
  have h2 := canonical_denotes (minimum := min x y) (x := y) (by omega)
  rw [h] at h1
  exact C15_denotes_unique h1 h2

theorem decimal_length (n : Nat) : (decimal n).length = Nat.log 10 n + 1 := by
  unfold decimal
  split
  · rename_i h; subst h; simp
  · rename_i h
    rw [List.length_reverse, Nat.digits_len 10 n (by omega) h]

/-- C16: the string is never longer than `digits_in_string_representation<integer<lo, hi>>`,
the capacity that `to_string` reserves. -/
theorem C16_length_bound (hW : 64 ≤ W) {bw : Bool} {b : BInt} {x : Int} (hb : Holds W b x) :
    ∃ (r : Rng) (n : Nat), Yields (digitsInString W bw 10 b.rng.lo b.rng.hi) r n ∧
      (canonical x).length ≤ n := by
  have ⟨p1, p2⟩ := pow_facts hW
  have rr := hb.1.rep hW
  have w := (wf_iff hW _).mp hb.1
  have mx := value_mem hb.2 w.1
  unfold Rng.Mem at mx
  obtain ⟨c, c1, c2⟩ := digitsImpl_spec hW (bw := bw) (neg1 := true) (base := 10) (by omega)
    (by unfold Rep; omega) rr.1 rr.2
  simp only [and_true, Bool.true_eq_false, and_false, if_false, Int.add_zero] at c2
  have e10 : (Int.toNat 10) = 10 := rfl
  rw [e10] at c2
  refine ⟨c.rng, max (Nat.log 10 b.rng.lo.natAbs + (if b.rng.lo < 0 then 1 else 0))
    (Nat.log 10 b.rng.hi.natAbs + (if b.rng.hi < 0 then 1 else 0)) + 1, ?_, ?_⟩
  · refine yields_of hW ⟨c, c1, rfl, ?_⟩ c2.1
    rw [c2.2]
    congr 1
    push_cast
    rfl
  · unfold canonical
    rw [List.length_append, List.length_map, decimal_length]
    by_cases hx : x < 0
    · rw [if_pos hx, if_pos (show b.rng.lo < 0 by omega)]
      have : Nat.log 10 x.natAbs ≤ Nat.log 10 b.rng.lo.natAbs := Nat.log_mono_right (by omega)
      simp only [List.length_cons, List.length_nil]
      omega
    · rw [if_neg hx]
      have : Nat.log 10 x.natAbs ≤ Nat.log 10 b.rng.hi.natAbs := Nat.log_mono_right (by omega)
      simp only [List.length_nil]
      omega

/-- "-45" -/
example : toAnyString 128 ⟨⟨-100, 100⟩, -45⟩ = some (.ok [45, 52, 53]) := by decide +kernel
example : Holds 128 ⟨⟨-100, 100⟩, -45⟩ (-45) ∧ abs 128 ⟨⟨-100, 100⟩, -45⟩ ≠ none := by
  unfold Holds; decide +kernel
example : toAnyString 128 ⟨⟨-100, 100⟩, 0⟩ = some (.ok [48]) := by decide +kernel
example : digitsInString 128 true 10 (-100) 99 = some (.ok (constB 4)) := by decide +kernel

end
end Verif.Bounded
