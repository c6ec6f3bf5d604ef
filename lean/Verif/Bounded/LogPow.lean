import Verif.Bounded.CheckInRange
import Mathlib.Data.Nat.Log

/-!
# `log` and `pow` (property C17)
-/

namespace Verif.Bounded

open Verif

/-- source/bounded/log.cpp 25-32 `log_impl`. All operands are unsigned or small enough
to be converted without change, so the loop is over natural numbers. `base > 1` is
guaranteed by the static_assert on line 46; without it the C++ loop would not
terminate. -/
def logImpl (value base : Nat) : Nat :=
  if h : 2 ≤ base ∧ base ≤ value then logImpl (value / base) base + 1 else 0
termination_by value
decreasing_by exact Nat.div_lt_self (by omega) (by omega)

/-- `std::bit_width` (assumed library function): the number of binary digits. -/
def bitWidth (n : Nat) : Nat := if n = 0 then 0 else n.log2 + 1

/-- source/bounded/log.cpp 34-36 `as_unsigned` for a value of type `t`. -/
def asUnsigned (t : CTy) (v : Int) : Nat := ((CTy.mk false t.bits).wrap v).toNat

/-- source/bounded/log.cpp 44-57 `log`. `bw` says whether `supports_bit_width<Value>`
holds (lines 38-41; it depends on the standard library for 128-bit types). The
condition of the `if constexpr` on line 52 is a constant expression only if the base
is a constant or its type excludes 2 (source/bounded/comparison.cpp 32-43). -/
def log (W : Nat) (bw : Bool) (value base : BInt) : Option (Res BInt) :=
  if ¬ (1 < base.rng.lo) then none
  else if ¬ (0 ≤ value.rng.lo) then none
  else do
    let r ← mkInteger W
      (logImpl ((umax W).wrap value.rng.lo).toNat ((umax W).wrap base.rng.hi).toNat)
      (logImpl ((umax W).wrap value.rng.hi).toNat ((umax W).wrap base.rng.lo).toNat)
    if base.rng.lo = 2 ∧ base.rng.hi ≠ 2 then none
    else if base.rng.lo = 2 ∧ bw then
      some (do
        let v ← value.value
        if ← equalB W value (constB 0) then return r.unchecked W 0
        else return r.unchecked W ((bitWidth (asUnsigned (value.rng.under W) v) : Int) - 1))
    else
      some (do
        let v ← value.value
        let b ← base.value
        return r.unchecked W (logImpl (asUnsigned (value.rng.under W) v) (asUnsigned (base.rng.under W) b)))

/-- source/bounded/pow.cpp 30-35: the squaring loop, in `max_unsigned_t` arithmetic
(modulo `M = 2^W`). A failing `BOUNDED_ASSERT` is the outcome `ub` (it is a compile
time error in a constant expression and an abort or nothing at run time). -/
def powSquare (M base exponent : Nat) : Res (Nat × Nat) :=
  if h : exponent % 2 = 0 ∧ 0 < exponent then
    if base = 0 ∨ (base * base % M) / base = base then powSquare M (base * base % M) (exponent / 2)
    else .ub
  else .ok (base, exponent)
termination_by exponent
decreasing_by omega

/-- source/bounded/pow.cpp 37-41: the multiplication loop, `n` rounds left. -/
def powMul (M base : Nat) : Nat → Nat → Res Nat
  | 0, result => .ok result
  | n + 1, result =>
    if base = 0 ∨ (result * base % M) / base = result then powMul M base n (result * base % M)
    else .ub

/-- source/bounded/pow.cpp 25-43 `pow_impl`. -/
def powImpl (M base exponent : Nat) : Res Nat :=
  if exponent = 0 then (if base ≠ 0 then .ok 1 else .ub)
  else do
    let p ← powSquare M base exponent
    powMul M p.1 (p.2 - 1) p.1

/-- source/bounded/pow.cpp 47-56 `pow`. -/
def pow (W : Nat) (base exponent : BInt) : Option (Res BInt) :=
  if ¬ (0 ≤ exponent.rng.lo) then none
  else if ¬ (0 ≤ base.rng.lo) then none
  else
    match powImpl (2 ^ W) ((umax W).wrap base.rng.lo).toNat ((umax W).wrap exponent.rng.lo).toNat,
      powImpl (2 ^ W) ((umax W).wrap base.rng.hi).toNat ((umax W).wrap exponent.rng.hi).toNat with
    | .ok lo, .ok hi => do
      let r ← mkInteger W lo hi
      some (do
        let b ← base.value
        let e ← exponent.value
        let v ← powImpl (2 ^ W) ((umax W).wrap b).toNat ((umax W).wrap e).toNat
        return r.unchecked W v)
    | _, _ => none

/-! ## Facts -/

section
variable {W : Nat}

theorem logImpl_eq {b : Nat} (hb : 2 ≤ b) (n : Nat) : logImpl n b = Nat.log b n := by
  induction n using Nat.strong_induction_on with
  | _ n ih =>
    unfold logImpl
    split
    · rename_i h
      rw [ih _ (Nat.div_lt_self (by omega) (by omega)), Nat.log_of_one_lt_of_le (by omega) h.2]
    · rename_i h
      rw [Nat.log_of_lt]
      omega

theorem bitWidth_eq {n : Nat} (hn : n ≠ 0) : bitWidth n = Nat.log 2 n + 1 := by
  unfold bitWidth
  rw [if_neg hn, Nat.log2_eq_log_two]

theorem umax_wrap_nonneg (hW : 64 ≤ W) {v : Int} (h0 : 0 ≤ v) (h : Rep W v) : (umax W).wrap v = v := by
  apply CTy.wrap_of_fits
  · show 1 ≤ W; omega
  · unfold CTy.Fits umax CTy.lo CTy.hi; simp; have := h.2; omega

/-- The stored value of a non-negative object survives the conversion to the unsigned
type of the same width. -/
theorem asUnsigned_eq (hW : 64 ≤ W) {r : Rng} (hr : r.Wf W) {v : Int} (hv : r.Mem v) (h0 : 0 ≤ v) :
    asUnsigned (r.under W) v = v.toNat := by
  obtain ⟨h1, h2⟩ := under_spec hW hr
  unfold asUnsigned
  rw [CTy.wrap_of_fits]
  · exact h1.1
  · have hf := h2 v hv
    have hp := CTy.two_pow_pred (n := (r.under W).bits) h1.1
    have hpos := CTy.two_pow_pos ((r.under W).bits - 1)
    unfold CTy.Fits CTy.lo CTy.hi at *
    cases hs : (r.under W).signed <;> simp [hs] at * <;> omega

theorem toNat_le_of {a b : Int} (h : a ≤ b) : a.toNat ≤ b.toNat := by omega

theorem log_lt_of_lt_two_pow {b n k : Nat} (hb : 2 ≤ b) (h : n < 2 ^ k) (hk : 0 < k) : Nat.log b n < k := by
  rcases Nat.eq_zero_or_pos n with h0 | h0
  · subst h0; simpa using hk
  · apply Nat.log_lt_of_lt_pow (by omega)
    exact lt_of_lt_of_le h (Nat.pow_le_pow_left hb k)

theorem log_spec (hW : 64 ≤ W) {bw : Bool} {a b : BInt} {x y : Int} (ha : Holds W a x) (hb : Holds W b y)
    (hc : log W bw a b ≠ none) :
    0 ≤ x ∧ 2 ≤ y ∧ ∃ c, log W bw a b = some (.ok c) ∧ Holds W c (Nat.log y.toNat x.toNat) ∧
      c.rng = ⟨Nat.log b.rng.hi.toNat a.rng.lo.toNat, Nat.log b.rng.lo.toNat a.rng.hi.toNat⟩ := by
  have ra := ha.1.rep hW
  have rb := hb.1.rep hW
  have wa := ((wf_iff hW _).mp ha.1).1
  have wb := ((wf_iff hW _).mp hb.1).1
  have mx := value_mem ha.2 wa
  have my := value_mem hb.2 wb
  have mx' := mx
  have my' := my
  unfold Rng.Mem at mx' my'
  unfold log at hc ⊢
  split at hc
  · exact absurd rfl hc
  · rename_i h1
    rw [if_neg h1]
    split at hc
    · exact absurd rfl hc
    · rename_i h2
      rw [if_neg h2]
      simp only [Classical.not_not] at h1 h2
      refine ⟨by omega, by omega, ?_⟩
      rw [umax_wrap_nonneg hW h2 ra.1, umax_wrap_nonneg hW (by omega) ra.2,
        umax_wrap_nonneg hW (by omega) rb.1, umax_wrap_nonneg hW (by omega) rb.2,
        logImpl_eq (by omega), logImpl_eq (by omega)] at hc ⊢
      cases hmk : mkInteger W (Nat.log b.rng.hi.toNat a.rng.lo.toNat : Nat) (Nat.log b.rng.lo.toNat a.rng.hi.toNat : Nat) with
      | none => rw [hmk] at hc; exact absurd rfl hc
      | some r =>
        have hwf := wf_of_mk hW hmk
        have hr := (mkInteger_some hW hmk).1
        have hmem : r.Mem (Nat.log y.toNat x.toNat : Nat) := by
          rw [hr]
          unfold Rng.Mem
          simp only [Int.ofNat_le]
          constructor
          · exact le_trans (Nat.log_anti_left (by omega) (by omega)) (Nat.log_mono_right (by omega))
          · exact le_trans (Nat.log_anti_left (by omega) (by omega)) (Nat.log_mono_right (by omega))
        rw [hmk] at hc
        simp only [Option.bind_eq_bind, Option.bind_some] at hc ⊢
        split at hc
        · exact absurd rfl hc
        · rename_i h3
          rw [if_neg h3]
          split
          · rename_i h4
            obtain ⟨q, hq, hq'⟩ := C09_equal_exact hW ha.1 (constB_holds hW (v := 0) (by
              have ⟨p1, p2⟩ := pow_facts hW; unfold Rep; omega)).1 ha.2 (constB_holds hW (v := 0) (by
              have ⟨p1, p2⟩ := pow_facts hW; unfold Rep; omega)).2
            have hy : y = 2 := by
              have : b.rng.hi = 2 := by
                by_contra h; exact h3 ⟨h4.1, h⟩
              omega
            subst hy
            simp only [ha.2, hq, Res.ok_bind, Res.pure_def]
            split
            · rename_i hz
              have hz := hq'.mp hz
              subst hz
              exact ⟨_, rfl, ⟨hwf, unchecked_value hW hwf hmem (by simp)⟩, hr⟩
            · rename_i hz
              have hz : x ≠ 0 := fun h => hz (hq'.mpr h)
              rw [asUnsigned_eq hW ha.1 mx (by omega), bitWidth_eq (by omega)]
              exact ⟨_, rfl, ⟨hwf, unchecked_value hW hwf hmem (by simp)⟩, hr⟩
          · simp only [ha.2, hb.2, Res.ok_bind, Res.pure_def]
            rw [asUnsigned_eq hW ha.1 mx (by omega), asUnsigned_eq hW hb.1 my (by omega), logImpl_eq (by omega)]
            exact ⟨_, rfl, ⟨hwf, unchecked_value hW hwf hmem rfl⟩, hr⟩

theorem powSquare_spec {M : Nat} (hM : 2 ≤ M) : ∀ {e b : Nat}, 0 < e → b < M →
    (b ^ e < M → ∃ b' e', powSquare M b e = .ok (b', e') ∧ e' % 2 = 1 ∧ b' ^ e' = b ^ e ∧ b' < M) ∧
    (M ≤ b ^ e → powSquare M b e = .ub ∨
      ∃ b' e', powSquare M b e = .ok (b', e') ∧ e' % 2 = 1 ∧ b' ^ e' = b ^ e ∧ b' < M) := by
  intro e
  induction e using Nat.strong_induction_on with
  | _ e ih =>
    intro b he hb
    unfold powSquare
    by_cases h : e % 2 = 0 ∧ 0 < e
    · rw [dif_pos h]
      have hsq : b ^ e = (b * b) ^ (e / 2) := by
        have : e = 2 * (e / 2) := by omega
        conv_lhs => rw [this, Nat.pow_mul]
        congr 1; exact Nat.pow_two b
      have he2 : 0 < e / 2 := by omega
      have le_pow : b * b ≤ b ^ e := by
        rw [hsq]; exact Nat.le_self_pow (by omega) _
      by_cases hov : b * b < M
      · rw [Nat.mod_eq_of_lt hov]
        have hcond : b = 0 ∨ b * b / b = b := by
          rcases Nat.eq_zero_or_pos b with h0 | h0
          · exact Or.inl h0
          · exact Or.inr (Nat.mul_div_cancel _ h0)
        rw [if_pos hcond, hsq]
        exact ih (e / 2) (by omega) he2 hov
      · have hcond : ¬ (b = 0 ∨ b * b % M / b = b) := by
          rintro (h0 | h0)
          · subst h0; simp at hov; omega
          · have h1 : b * b % M < M := Nat.mod_lt _ (by omega)
            have h2 := Nat.div_mul_le_self (b * b % M) b
            rw [h0] at h2; omega
        rw [if_neg hcond]
        refine ⟨fun hlt => absurd (lt_of_le_of_lt le_pow hlt) hov, fun _ => Or.inl rfl⟩
    · rw [dif_neg h]
      have ho : e % 2 = 1 := by omega
      exact ⟨fun _ => ⟨b, e, rfl, ho, rfl, hb⟩, fun _ => Or.inr ⟨b, e, rfl, ho, rfl, hb⟩⟩

theorem powMul_spec {M : Nat} {b : Nat} : ∀ {n r : Nat}, r < M →
    (r * b ^ n < M → powMul M b n r = .ok (r * b ^ n)) ∧
    (M ≤ r * b ^ n → powMul M b n r = .ub)
  | 0, r, hr => by
    simp only [powMul, Nat.pow_zero, Nat.mul_one]
    exact ⟨fun _ => trivial, fun h => absurd hr (by omega)⟩
  | n + 1, r, hr => by
    unfold powMul
    have e : r * b ^ (n + 1) = r * b * b ^ n := by rw [Nat.pow_succ, Nat.mul_comm (b ^ n), Nat.mul_assoc]
    rw [e]
    by_cases hov : r * b < M
    · rw [Nat.mod_eq_of_lt hov]
      have hcond : b = 0 ∨ r * b / b = r := by
        rcases Nat.eq_zero_or_pos b with h0 | h0
        · exact Or.inl h0
        · exact Or.inr (Nat.mul_div_cancel _ h0)
      rw [if_pos hcond]
      exact powMul_spec hov
    · have hb0 : b ≠ 0 := by rintro rfl; simp at hov; omega
      have hcond : ¬ (b = 0 ∨ r * b % M / b = r) := by
        rintro (h0 | h0)
        · exact hb0 h0
        · have h1 : r * b % M < M := Nat.mod_lt _ (by omega)
          have h2 := Nat.div_mul_le_self (r * b % M) b
          rw [h0] at h2; omega
      rw [if_neg hcond]
      refine ⟨fun hlt => ?_, fun _ => rfl⟩
      have : r * b ≤ r * b * b ^ n := Nat.le_mul_of_pos_right _ (Nat.pow_pos (by omega))
      omega

/-- `pow_impl` returns the power exactly when it fits and is not `0^0`; every overflow
is caught by an assertion. -/
theorem powImpl_eq {M : Nat} (hM : 2 ≤ M) {b e : Nat} (hb : b < M) :
    powImpl M b e = if (b = 0 ∧ e = 0) ∨ M ≤ b ^ e then .ub else .ok (b ^ e) := by
  unfold powImpl
  split
  · rename_i he
    subst he
    by_cases h0 : b = 0
    · rw [if_neg (by simpa using h0), if_pos (by simp [h0])]
    · rw [if_pos h0, if_neg (by simp [h0]; omega)]; simp
  · rename_i he
    have sp := powSquare_spec hM (e := e) (b := b) (by omega) hb
    have fin : ∀ b' e', powSquare M b e = .ok (b', e') → e' % 2 = 1 → b' ^ e' = b ^ e → b' < M →
        (do let p ← powSquare M b e; powMul M p.1 (p.2 - 1) p.1) =
          if (b = 0 ∧ e = 0) ∨ M ≤ b ^ e then .ub else .ok (b ^ e) := by
      intro b' e' h1 h2 h3 h4
      rw [h1]
      simp only [Res.ok_bind]
      have he' : b' * b' ^ (e' - 1) = b ^ e := by
        rw [← h3]
        conv_rhs => rw [show e' = (e' - 1) + 1 by omega, Nat.pow_succ, Nat.mul_comm]
      have pm := powMul_spec (b := b') (n := e' - 1) h4
      rw [he'] at pm
      clear sp
      by_cases hlt : b ^ e < M
      · rw [if_neg (by omega)]; exact pm.1 hlt
      · rw [if_pos (by omega)]; exact pm.2 (by omega)
    by_cases hlt : b ^ e < M
    · obtain ⟨b', e', h1, h2, h3, h4⟩ := sp.1 hlt
      exact fin b' e' h1 h2 h3 h4
    · rcases sp.2 (by omega) with h | ⟨b', e', h1, h2, h3, h4⟩
      · rw [h, if_pos (by omega)]; rfl
      · exact fin b' e' h1 h2 h3 h4

theorem pow_mono_of {b1 b2 e1 e2 : Nat} (hb : b1 ≤ b2) (he : e1 ≤ e2) (h : ¬ (b1 = 0 ∧ e1 = 0)) (h' : ¬ (b2 = 0 ∧ e2 = 0)) :
    b1 ^ e1 ≤ b2 ^ e2 := by
  rcases Nat.eq_zero_or_pos b2 with h0 | h0
  · have : b1 = 0 := by omega
    subst this
    have : e1 ≠ 0 := fun h1 => h ⟨rfl, h1⟩
    rw [Nat.zero_pow (by omega)]; omega
  · exact le_trans (Nat.pow_le_pow_left hb e1) (Nat.pow_le_pow_right h0 he)

theorem pow_spec (hW : 64 ≤ W) {a b : BInt} {x y : Int} (ha : Holds W a x) (hb : Holds W b y)
    (hc : pow W a b ≠ none) :
    0 ≤ x ∧ 0 ≤ y ∧ ¬ (x = 0 ∧ y = 0) ∧ ∃ c, pow W a b = some (.ok c) ∧ Holds W c (x ^ y.toNat) ∧
      c.rng = ⟨a.rng.lo ^ b.rng.lo.toNat, a.rng.hi ^ b.rng.hi.toNat⟩ := by
  have ⟨p1, p2⟩ := pow_facts hW
  have hM : 2 ≤ 2 ^ W := by
    calc 2 = 2 ^ 1 := rfl
      _ ≤ 2 ^ W := Nat.pow_le_pow_right (by omega) (by omega)
  have ra := ha.1.rep hW
  have rb := hb.1.rep hW
  have wa := ((wf_iff hW _).mp ha.1).1
  have wb := ((wf_iff hW _).mp hb.1).1
  have mx := value_mem ha.2 wa
  have my := value_mem hb.2 wb
  unfold Rng.Mem at mx my
  have natlt : ∀ v : Int, 0 ≤ v → v < 2 ^ W → v.toNat < 2 ^ W := by
    intro v h0 h1
    have : (v.toNat : Int) < ((2 ^ W : Nat) : Int) := by push_cast; omega
    exact_mod_cast this
  have cast : ∀ (v : Int) (n : Nat), 0 ≤ v → ((v.toNat ^ n : Nat) : Int) = v ^ n := by
    intro v n h; push_cast; rw [Int.toNat_of_nonneg h]
  unfold pow at hc ⊢
  split at hc
  · exact absurd rfl hc
  · rename_i h1
    rw [if_neg h1]
    split at hc
    · exact absurd rfl hc
    · rename_i h2
      rw [if_neg h2]
      simp only [Classical.not_not] at h1 h2
      rw [umax_wrap_nonneg hW h2 ra.1, umax_wrap_nonneg hW (by omega) ra.2,
        umax_wrap_nonneg hW h1 rb.1, umax_wrap_nonneg hW (by omega) rb.2,
        powImpl_eq hM (natlt _ h2 ra.1.2), powImpl_eq hM (natlt _ (by omega) ra.2.2)] at hc ⊢
      by_cases c1 : (a.rng.lo.toNat = 0 ∧ b.rng.lo.toNat = 0) ∨ 2 ^ W ≤ a.rng.lo.toNat ^ b.rng.lo.toNat
      · rw [if_pos c1] at hc; exact absurd rfl hc
      · rw [if_neg c1] at hc ⊢
        by_cases c2 : (a.rng.hi.toNat = 0 ∧ b.rng.hi.toNat = 0) ∨ 2 ^ W ≤ a.rng.hi.toNat ^ b.rng.hi.toNat
        · rw [if_pos c2] at hc; exact absurd rfl hc
        · rw [if_neg c2] at hc ⊢
          simp only [not_or] at c1 c2
          have hxy : ¬ (x.toNat = 0 ∧ y.toNat = 0) := by
            have := c1.1; omega
          have hle := pow_mono_of (b1 := x.toNat) (b2 := a.rng.hi.toNat) (e1 := y.toNat) (e2 := b.rng.hi.toNat)
            (by omega) (by omega) hxy c2.1
          have hge := pow_mono_of (b1 := a.rng.lo.toNat) (b2 := x.toNat) (e1 := b.rng.lo.toNat) (e2 := y.toNat)
            (by omega) (by omega) c1.1 hxy
          refine ⟨by omega, by omega, by omega, ?_⟩
          simp only at hc ⊢
          cases hmk : mkInteger W ((a.rng.lo.toNat ^ b.rng.lo.toNat : Nat) : Int) ((a.rng.hi.toNat ^ b.rng.hi.toNat : Nat) : Int) with
          | none => rw [hmk] at hc; exact absurd rfl hc
          | some r =>
            have hwf := wf_of_mk hW hmk
            have hr := (mkInteger_some hW hmk).1
            simp only [Option.bind_eq_bind, Option.bind_some, ha.2, hb.2, Res.ok_bind, Res.pure_def]
            have rx : Rep W x := by unfold Rep at *; omega
            have ry : Rep W y := by unfold Rep at *; omega
            rw [umax_wrap_nonneg hW (by omega) rx, umax_wrap_nonneg hW (by omega) ry,
              powImpl_eq hM (natlt _ (by omega) rx.2), if_neg (by
                have := c2.2
                rintro (h | h)
                · exact hxy h
                · omega)]
            simp only [Res.ok_bind]
            refine ⟨_, rfl, ⟨hwf, unchecked_value hW hwf (v := x ^ y.toNat) ?_ ?_⟩, ?_⟩
            · rw [hr, ← cast x y.toNat (by omega)]
              unfold Rng.Mem
              simp only
              constructor <;> exact_mod_cast (by assumption)
            · rw [cast x y.toNat (by omega)]
            · show r = _
              rw [hr, cast _ _ h2, cast _ _ (by omega)]

/-- C17: whenever `log(value, base)` compiles the arguments are in the domain, and the
result is the largest exponent `e` with `base^e <= value` (0 for the value 0), inside
the declared range. It does not matter whether `std::bit_width` supports the type. -/
theorem C17_log_exact (hW : 64 ≤ W) {bw : Bool} {a b : BInt} {x y : Int} (ha : Holds W a x) (hb : Holds W b y)
    (hc : log W bw a b ≠ none) :
    0 ≤ x ∧ 2 ≤ y ∧ ∃ r e, Yields (log W bw a b) r (e : Nat) ∧
      (x = 0 → e = 0) ∧ (0 < x → y ^ e ≤ x ∧ x < y ^ (e + 1)) := by
  obtain ⟨h1, h2, c, c1, c2, c3⟩ := log_spec hW ha hb hc
  refine ⟨h1, h2, c.rng, Nat.log y.toNat x.toNat, yields_of hW ⟨c, c1, rfl, c2.2⟩ c2.1, ?_, ?_⟩
  · rintro rfl; simp
  · intro hx
    have e1 := Nat.pow_log_le_self y.toNat (x := x.toNat) (by omega)
    have e2 := Nat.lt_pow_succ_log_self (b := y.toNat) (by omega) x.toNat
    have e1' : ((y.toNat ^ Nat.log y.toNat x.toNat : Nat) : Int) ≤ (x.toNat : Int) := by exact_mod_cast e1
    have e2' : (x.toNat : Int) < ((y.toNat ^ (Nat.log y.toNat x.toNat + 1) : Nat) : Int) := by exact_mod_cast e2
    rw [Int.natCast_pow] at e1' e2'
    have hy : (y.toNat : Int) = y := Int.toNat_of_nonneg (by omega)
    have hx : (x.toNat : Int) = x := Int.toNat_of_nonneg h1
    rw [hy, hx] at e1' e2'
    exact ⟨e1', e2'⟩

/-- C17: whenever `pow(base, exponent)` compiles the result is exactly the power,
inside the declared range; no intermediate product wraps around (a wrapping product
would fail an assertion) and `0^0` cannot occur. -/
theorem C17_pow_exact (hW : 64 ≤ W) {a b : BInt} {x y : Int} (ha : Holds W a x) (hb : Holds W b y)
    (hc : pow W a b ≠ none) :
    0 ≤ x ∧ 0 ≤ y ∧ ¬ (x = 0 ∧ y = 0) ∧
      Yields (pow W a b) ⟨a.rng.lo ^ b.rng.lo.toNat, a.rng.hi ^ b.rng.hi.toNat⟩ (x ^ y.toNat) := by
  obtain ⟨h1, h2, h3, c, c1, c2, c3⟩ := pow_spec hW ha hb hc
  refine ⟨h1, h2, h3, ?_⟩
  rw [← c3]
  exact yields_of hW ⟨c, c1, rfl, c2.2⟩ c2.1

/-- C17: an overflowing compile-time bound is always rejected, never wrapped. -/
theorem C17_pow_overflow_rejected {a b : BInt} (hW : 64 ≤ W) (ha : a.rng.Wf W) (hb : b.rng.Wf W)
    (h : 2 ^ W ≤ a.rng.hi ^ b.rng.hi.toNat) : pow W a b = none := by
  have hM : 2 ≤ 2 ^ W := by
    calc 2 = 2 ^ 1 := rfl
      _ ≤ 2 ^ W := Nat.pow_le_pow_right (by omega) (by omega)
  have ra := ha.rep hW
  have rb := hb.rep hW
  have wa := ((wf_iff hW _).mp ha).1
  have wb := ((wf_iff hW _).mp hb).1
  unfold pow
  split
  · rfl
  · rename_i h1
    split
    · rfl
    · rename_i h2
      simp only [Classical.not_not] at h1 h2
      have hlt : a.rng.hi.toNat < 2 ^ W := by
        have : (a.rng.hi.toNat : Int) < ((2 ^ W : Nat) : Int) := by push_cast; have := ra.2.2; omega
        exact_mod_cast this
      have hov : 2 ^ W ≤ a.rng.hi.toNat ^ b.rng.hi.toNat := by
        have : ((2 ^ W : Nat) : Int) ≤ ((a.rng.hi.toNat ^ b.rng.hi.toNat : Nat) : Int) := by
          push_cast; rw [Int.toNat_of_nonneg (by omega)]; exact h
        exact_mod_cast this
      rw [umax_wrap_nonneg hW (v := a.rng.hi) (by omega) ra.2, umax_wrap_nonneg hW (v := b.rng.hi) (by omega) rb.2,
        powImpl_eq hM hlt, if_pos (Or.inr hov)]
      split
      · rename_i e; simp at e
      · rfl

example : log 128 true ⟨⟨0, 1000⟩, 998⟩ (constB 2) = some (.ok ⟨⟨0, 9⟩, 9⟩) := by decide +kernel
example : log 128 false ⟨⟨5, 1000⟩, 998⟩ ⟨⟨3, 10⟩, 9⟩ = some (.ok ⟨⟨0, 6⟩, 3⟩) := by decide +kernel
example : pow 128 ⟨⟨0, 10⟩, 3⟩ ⟨⟨1, 12⟩, 12⟩ = some (.ok ⟨⟨0, 1000000000000⟩, 531441⟩) := by decide +kernel
example : pow 128 ⟨⟨0, 10⟩, 3⟩ ⟨⟨1, 60⟩, 12⟩ = none := by decide +kernel

end
end Verif.Bounded
