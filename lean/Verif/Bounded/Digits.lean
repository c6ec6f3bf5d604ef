import Verif.Bounded.LogPow

/-!
# `numeric_limits::digits`, `representation_bits`, `digits_in_string_representation`
(property C18)
-/

namespace Verif.Bounded

open Verif

/-- Sequencing of sub-expressions that may fail to compile. -/
def thenB {α : Type} (a : Option (Res BInt)) (f : BInt → Option (Res α)) : Option (Res α) := do
  match ← a with
  | .ok x => f x
  | .ub => some .ub
  | .exn => some .exn

@[simp] theorem thenB_ok {α : Type} (x : BInt) (f : BInt → Option (Res α)) : thenB (some (.ok x)) f = f x := rfl
@[simp] theorem thenB_none {α : Type} (f : BInt → Option (Res α)) : thenB none f = none := rfl

/-- source/bounded/numeric_limits.cpp 28-44 `digits(constant<lo>, constant<hi>, constant<base>)`.
`bw`: see `log`. -/
def limitsDigits (W : Nat) (bw : Bool) (lo hi base : Int) : Option (Res BInt) :=
  if ¬ 1 < base then none
  else if 0 < lo ∨ hi ≤ 0 then some (.ok (constB 0))
  else if hi = (umax W).hi then
    if base = 2 then some (.ok (constB W)) else log W bw (constB hi) (constB base)
  else thenB (neg W (constB lo)) fun n =>
    if lo = 0 ∨ hi < n.rng.lo then
      thenB (plus W (constB hi) (constB 1)) fun s => log W bw s (constB base)
    else thenB (plus W n (constB 1)) fun s => log W bw s (constB base)

/-- source/bounded/representation_digits.cpp 26-34 `safe_log`; `neg1` is
`sign == count_sign::negative`. -/
def safeLog (W : Nat) (bw : Bool) (neg1 : Bool) (base value : Int) : Option (Res BInt) :=
  if value = 0 then some (.ok (constB 0))
  else if value > 0 then log W bw (constB value) (constB base)
  else thenB (neg W (constB value)) fun n =>
    thenB (log W bw n (constB base)) fun l => plus W l (constB (if neg1 then 1 else 0))

/-- source/bounded/representation_digits.cpp 24-39 `digits_impl<integer<lo, hi>, sign>(base)`. -/
def digitsImpl (W : Nat) (bw : Bool) (neg1 : Bool) (base lo hi : Int) : Option (Res BInt) :=
  thenB (safeLog W bw neg1 base lo) fun a =>
    thenB (safeLog W bw neg1 base hi) fun b =>
      thenB (extreme W .greater a [b]) fun m =>
        thenB (plus W m (constB (if lo < 0 ∧ neg1 = false then 1 else 0))) fun s => plus W s (constB 1)

/-- source/bounded/representation_digits.cpp 41-44. -/
def digitsInString (W : Nat) (bw : Bool) (base lo hi : Int) : Option (Res BInt) :=
  digitsImpl W bw true base lo hi

/-- source/bounded/representation_digits.cpp 47-48. -/
def representationBits (W : Nat) (bw : Bool) (lo hi : Int) : Option (Res BInt) :=
  digitsImpl W bw false 2 lo hi

/-! ## Facts -/

section
variable {W : Nat}

/-- The object is a constant. -/
def IsConst (c : BInt) (v : Int) : Prop := c.rng = ⟨v, v⟩

theorem isConst_eq {c : BInt} {v : Int} (h : IsConst c v) : c.rng.lo = v ∧ c.rng.hi = v := by
  unfold IsConst at h; rw [h]; exact ⟨rfl, rfl⟩

theorem W_lt_pow (hW : 64 ≤ W) : (W : Int) < 2 ^ (W - 1) := by
  have h : ∀ n : Nat, 63 ≤ n → n + 1 < 2 ^ n := by
    intro n hn
    induction n, hn using Nat.le_induction with
    | base => decide
    | succ n hn ih => rw [Nat.pow_succ]; omega
  have := h (W - 1) (by omega)
  have h2 : ((W - 1 + 1 : Nat) : Int) < ((2 ^ (W - 1) : Nat) : Int) := by exact_mod_cast this
  push_cast at h2
  omega

theorem log_lt_W (hW : 64 ≤ W) {c b : Int} (h0 : 0 ≤ c) (h : Rep W c) (hb : 2 ≤ b) :
    Nat.log b.toNat c.toNat < W := by
  apply log_lt_of_lt_two_pow (by omega) _ (by omega)
  have : (c.toNat : Int) < ((2 ^ W : Nat) : Int) := by push_cast; have := h.2; omega
  exact_mod_cast this

theorem storable_const (hW : 64 ≤ W) {v : Int} (h : Rep W v) : mkInteger W v v = some ⟨v, v⟩ := by
  have := (constB_holds hW h).1
  exact this

theorem rep_of_nat_lt (hW : 64 ≤ W) {n : Nat} (h : n ≤ W + 2) : Rep W (n : Int) := by
  have ⟨p1, p2⟩ := pow_facts hW
  have := W_lt_pow hW
  unfold Rep
  omega

theorem log_const (hW : 64 ≤ W) {bw : Bool} {a : BInt} {c b : Int} (ha : Holds W a c) (hac : IsConst a c)
    (h0 : 0 ≤ c) (hb : 2 ≤ b) (rb : Rep W b) :
    ∃ d, log W bw a (constB b) = some (.ok d) ∧ Holds W d (Nat.log b.toNat c.toNat : Nat) ∧
      IsConst d (Nat.log b.toNat c.toNat : Nat) := by
  have hac := isConst_eq hac
  have ra := ha.1.rep hW
  rw [hac.1] at ra
  have hl := log_lt_W hW h0 ra.1 hb
  have hc : log W bw a (constB b) ≠ none := by
    have e1 : (constB b).rng.lo = b := rfl
    have e2 : (constB b).rng.hi = b := rfl
    unfold log
    rw [e1, e2, hac.1, hac.2, if_neg (by omega), if_neg (by omega), umax_wrap_nonneg hW h0 ra.1,
      umax_wrap_nonneg hW (by omega) rb, logImpl_eq (by omega),
      storable_const hW (rep_of_nat_lt hW (by omega))]
    simp only [Option.bind_eq_bind, Option.bind_some]
    split
    · rename_i h; exact absurd h.1 h.2
    · split <;> simp
  obtain ⟨_, _, d, d1, d2, d3⟩ := log_spec hW ha (constB_holds hW rb) hc
  refine ⟨d, d1, d2, ?_⟩
  unfold IsConst
  rw [d3, hac.1, hac.2]
  rfl

theorem plus_const (hW : 64 ≤ W) {a b : BInt} {x y : Int} (ha : Holds W a x) (hb : Holds W b y)
    (ca : IsConst a x) (cb : IsConst b y) (h : Rep W (x + y)) :
    ∃ c, plus W a b = some (.ok c) ∧ Holds W c (x + y) ∧ IsConst c (x + y) := by
  have hn : plus W a b ≠ none := by
    intro hn
    rw [C01_add_rejected_iff hW ha.1 hb.1] at hn
    have ca := isConst_eq ca
    have cb := isConst_eq cb
    rw [ca.1, ca.2, cb.1, cb.2] at hn
    have ⟨p1, p2⟩ := pow_facts hW
    unfold Rep at h
    omega
  obtain ⟨c, c1, c2⟩ := plus_holds hW ha hb hn
  obtain ⟨d, d1, d2, _⟩ := C01_add_exact hW ha hb hn
  rw [c1] at d1
  simp only [Option.some.injEq, Res.ok.injEq] at d1
  subst d1
  refine ⟨c, c1, c2, ?_⟩
  unfold IsConst at *
  rw [d2, ca, cb]

theorem neg_const (hW : 64 ≤ W) {a : BInt} {x : Int} (ha : Holds W a x)
    (ca : IsConst a x) (h : Rep W (-x)) :
    ∃ c, neg W a = some (.ok c) ∧ Holds W c (-x) ∧ IsConst c (-x) := by
  have hn : neg W a ≠ none := by
    intro hn
    rw [C03_neg_rejected_iff hW ha.1] at hn
    have ca := isConst_eq ca
    rw [ca.1, ca.2] at hn
    have ⟨p1, p2⟩ := pow_facts hW
    unfold Rep at h
    omega
  obtain ⟨c, c1, c2⟩ := neg_holds hW ha hn
  obtain ⟨d, d1, d2, _⟩ := C03_neg_exact hW ha hn
  rw [c1] at d1
  simp only [Option.some.injEq, Res.ok.injEq] at d1
  subst d1
  refine ⟨c, c1, c2, ?_⟩
  unfold IsConst at *
  rw [d2, ca]

theorem constB_isConst (v : Int) : IsConst (constB v) v := rfl

theorem limitsDigits_spec (hW : 64 ≤ W) {bw : Bool} {lo hi base : Int} (hwf : (Rng.mk lo hi).Wf W)
    (hb : 2 ≤ base) (rb : Rep W base) :
    ∃ (c : BInt) (d : Nat), limitsDigits W bw lo hi base = some (.ok c) ∧ Holds W c d ∧
      (d ≠ 0 → lo ≤ 0 ∧ base ^ d - 1 ≤ hi ∧ (lo < 0 → base ^ d - 1 ≤ -lo)) := by
  have ⟨p1, p2⟩ := pow_facts hW
  have w := (wf_iff hW _).mp hwf
  have rr := hwf.rep hW
  simp only at w rr
  unfold Storable at w
  have rep0 : Rep W 0 := by unfold Rep; omega
  have powlog : ∀ n : Int, 0 < n → base ^ (Nat.log base.toNat n.toNat) ≤ n := by
    intro n hn
    have e1 := Nat.pow_log_le_self base.toNat (x := n.toNat) (by omega)
    have e1' : ((base.toNat ^ Nat.log base.toNat n.toNat : Nat) : Int) ≤ (n.toNat : Int) := by exact_mod_cast e1
    rw [Int.natCast_pow, Int.toNat_of_nonneg (by omega), Int.toNat_of_nonneg (by omega)] at e1'
    exact e1'
  unfold limitsDigits
  rw [if_neg (by omega)]
  split
  · exact ⟨constB 0, 0, rfl, constB_holds hW rep0, fun h => absurd rfl h⟩
  · rename_i h1
    have hu : (umax W).hi = 2 ^ W - 1 := rfl
    split
    · rename_i h2
      split
      · rename_i h3
        refine ⟨constB W, W, rfl, constB_holds hW (rep_of_nat_lt hW (by omega)), fun _ => ?_⟩
        rw [h2, h3, hu]; omega
      · obtain ⟨d, d1, d2, _⟩ := log_const hW (bw := bw) (constB_holds hW rr.2) (constB_isConst hi) (by omega) hb rb
        refine ⟨d, _, d1, d2, fun _ => ?_⟩
        have := powlog hi (by omega)
        omega
    · rename_i h2
      obtain ⟨n, n1, n2, n3⟩ := neg_const hW (constB_holds hW rr.1) (constB_isConst lo) (by unfold Rep at *; omega)
      rw [n1]
      simp only [thenB_ok, (isConst_eq n3).1]
      split
      · rename_i h3
        obtain ⟨s, s1, s2, s3⟩ := plus_const hW (constB_holds hW rr.2) (constB_holds hW (rep_one hW))
          (constB_isConst hi) (constB_isConst 1) (by unfold Rep at *; omega)
        rw [s1]
        simp only [thenB_ok]
        obtain ⟨d, d1, d2, _⟩ := log_const hW (bw := bw) s2 s3 (by omega) hb rb
        refine ⟨d, _, d1, d2, fun _ => ?_⟩
        have := powlog (hi + 1) (by omega)
        omega
      · rename_i h3
        obtain ⟨s, s1, s2, s3⟩ := plus_const hW n2 (constB_holds hW (rep_one hW))
          n3 (constB_isConst 1) (by unfold Rep at *; omega)
        rw [s1]
        simp only [thenB_ok]
        obtain ⟨d, d1, d2, _⟩ := log_const hW (bw := bw) s2 s3 (by omega) hb rb
        refine ⟨d, _, d1, d2, fun _ => ?_⟩
        have := powlog (-lo + 1) (by omega)
        omega

/-- C18: `numeric_limits<integer<lo, hi>>::digits` (`base` 2) and `digits10` (`base`
10), in fact for every base: the computation compiles for every type, and if the result
`d` is meaningful (non-zero) then every number with at most `d` digits is a value of the
type: all of `[0, base^d)`, and for signed types also all of `(-base^d, 0]`. -/
theorem C18_digits_safe (hW : 64 ≤ W) {bw : Bool} {lo hi base : Int} (hwf : (Rng.mk lo hi).Wf W)
    (hb : 2 ≤ base) (rb : Rep W base) :
    ∃ (r : Rng) (d : Nat), Yields (limitsDigits W bw lo hi base) r d ∧
      (d ≠ 0 → ∀ v : Int, |v| < base ^ d → (lo < 0 ∨ 0 ≤ v) → lo ≤ v ∧ v ≤ hi) := by
  obtain ⟨c, d, h1, h2, h3⟩ := limitsDigits_spec hW (bw := bw) hwf hb rb
  refine ⟨c.rng, d, yields_of hW ⟨c, h1, rfl, h2.2⟩ h2.1, fun hd v hv hs => ?_⟩
  have := h3 hd
  rw [abs_lt] at hv
  omega

theorem safeLog_spec (hW : 64 ≤ W) {bw neg1 : Bool} {base v : Int} (hb : 2 ≤ base) (rb : Rep W base)
    (rv : Rep W v) :
    ∃ c, safeLog W bw neg1 base v = some (.ok c) ∧
      Holds W c ((Nat.log base.toNat v.natAbs : Nat) + (if v < 0 ∧ neg1 then 1 else 0)) := by
  have ⟨p1, p2⟩ := pow_facts hW
  have rep0 : Rep W 0 := by unfold Rep; omega
  unfold safeLog
  split
  · rename_i h
    subst h
    exact ⟨_, rfl, by simpa using constB_holds hW rep0⟩
  · split
    · rename_i h1 h2
      obtain ⟨d, d1, d2, _⟩ := log_const hW (bw := bw) (constB_holds hW rv) (constB_isConst v) (by omega) hb rb
      refine ⟨d, d1, ?_⟩
      rw [if_neg (by omega)]
      rw [show v.toNat = v.natAbs by omega] at d2
      simpa using d2
    · rename_i h1 h2
      have rn : Rep W (-v) := by unfold Rep at *; omega
      obtain ⟨n, n1, n2, n3⟩ := neg_const hW (constB_holds hW rv) (constB_isConst v) rn
      rw [n1]
      simp only [thenB_ok]
      obtain ⟨d, d1, d2, d3⟩ := log_const hW (bw := bw) n2 n3 (by omega) hb rb
      rw [d1]
      simp only [thenB_ok]
      have hl := log_lt_W hW (by omega) rn hb
      have hWp := W_lt_pow hW
      rw [show (-v).toNat = v.natAbs by omega] at *
      have rc : Rep W (if neg1 = true then 1 else 0) := by
        cases neg1 <;> simp <;> unfold Rep <;> omega
      obtain ⟨e, e1, e2, _⟩ := plus_const hW d2 (constB_holds hW rc) d3 (constB_isConst _) (by
        cases neg1 <;> simp <;> unfold Rep <;> omega)
      refine ⟨e, e1, ?_⟩
      have : (if v < 0 ∧ neg1 = true then (1 : Int) else 0) = if neg1 = true then 1 else 0 := by
        cases neg1 <;> simp; omega
      rw [this]
      exact e2

/-- The result types of the small sums always exist. -/
theorem plus_small (hW : 64 ≤ W) {a : BInt} {x : Int} (ha : Holds W a x) (hr : 0 ≤ a.rng.lo ∧ a.rng.hi ≤ W + 3)
    {k : Int} (hk : k = 0 ∨ k = 1) :
    ∃ c, plus W a (constB k) = some (.ok c) ∧ Holds W c (x + k) ∧ 0 ≤ c.rng.lo ∧ c.rng.hi ≤ a.rng.hi + 1 := by
  have ⟨p1, p2⟩ := pow_facts hW
  have hWp := W_lt_pow hW
  have rk : Rep W k := by unfold Rep; omega
  have e1 : (constB k).rng.lo = k := rfl
  have e2 : (constB k).rng.hi = k := rfl
  have hn : plus W a (constB k) ≠ none := by
    intro hn
    rw [C01_add_rejected_iff hW ha.1 (constB_holds hW rk).1, e1, e2] at hn
    omega
  obtain ⟨c, c1, c2⟩ := plus_holds hW ha (constB_holds hW rk) hn
  obtain ⟨d, d1, d2, _⟩ := C01_add_exact hW ha (constB_holds hW rk) hn
  rw [c1] at d1
  simp only [Option.some.injEq, Res.ok.injEq] at d1
  subst d1
  refine ⟨c, c1, c2, ?_⟩
  rw [d2, e1, e2]
  simp only
  omega

theorem safeLog_rng (hW : 64 ≤ W) {bw neg1 : Bool} {base v : Int} (hb : 2 ≤ base) (rb : Rep W base)
    (rv : Rep W v) {c : BInt} (h : safeLog W bw neg1 base v = some (.ok c)) :
    0 ≤ c.rng.lo ∧ c.rng.hi ≤ W := by
  have ⟨p1, p2⟩ := pow_facts hW
  unfold safeLog at h
  split at h
  · simp only [Option.some.injEq, Res.ok.injEq] at h
    subst h
    simp only [constB]; omega
  · split at h
    · rename_i h1 h2
      obtain ⟨d, d1, d2, d3⟩ := log_const hW (bw := bw) (constB_holds hW rv) (constB_isConst v) (by omega) hb rb
      rw [d1] at h
      simp only [Option.some.injEq, Res.ok.injEq] at h
      subst h
      have hl := log_lt_W hW (by omega) rv hb
      rw [(isConst_eq d3).1, (isConst_eq d3).2]
      omega
    · rename_i h1 h2
      have rn : Rep W (-v) := by unfold Rep at *; omega
      obtain ⟨n, n1, n2, n3⟩ := neg_const hW (constB_holds hW rv) (constB_isConst v) rn
      rw [n1] at h
      simp only [thenB_ok] at h
      obtain ⟨d, d1, d2, d3⟩ := log_const hW (bw := bw) n2 n3 (by omega) hb rb
      rw [d1] at h
      simp only [thenB_ok] at h
      have hl := log_lt_W hW (by omega) rn hb
      obtain ⟨e, e1, e2, e3, e4⟩ := plus_small hW d2 (k := if neg1 = true then 1 else 0)
        (by rw [(isConst_eq d3).1, (isConst_eq d3).2]; omega) (by cases neg1 <;> simp)
      rw [e1] at h
      simp only [Option.some.injEq, Res.ok.injEq] at h
      subst h
      rw [(isConst_eq d3).2] at e4
      omega

/-- The value computed by `digits_impl`. -/
theorem digitsImpl_spec (hW : 64 ≤ W) {bw neg1 : Bool} {base lo hi : Int} (hb : 2 ≤ base) (rb : Rep W base)
    (rl : Rep W lo) (rh : Rep W hi) :
    ∃ c, digitsImpl W bw neg1 base lo hi = some (.ok c) ∧
      Holds W c (max ((Nat.log base.toNat lo.natAbs : Nat) + (if lo < 0 ∧ neg1 then 1 else 0) : Int)
        ((Nat.log base.toNat hi.natAbs : Nat) + (if hi < 0 ∧ neg1 then 1 else 0) : Int) +
        (if lo < 0 ∧ neg1 = false then 1 else 0) + 1) := by
  obtain ⟨a, a1, a2⟩ := safeLog_spec hW (bw := bw) (neg1 := neg1) hb rb rl
  obtain ⟨b, b1, b2⟩ := safeLog_spec hW (bw := bw) (neg1 := neg1) hb rb rh
  have ga := safeLog_rng hW hb rb rl a1
  have gb := safeLog_rng hW hb rb rh b1
  obtain ⟨m, m1, m2, m3⟩ := extreme_value hW .greater a2 (List.Forall₂.cons b2 .nil)
  simp only [List.map_cons, List.map_nil, List.foldl_cons, List.foldl_nil, Cmp.op] at m2 m3
  obtain ⟨s, s1, s2, s3, s4⟩ := plus_small hW m2 (k := if lo < 0 ∧ neg1 = false then 1 else 0)
    (by rw [m3]; simp only; omega) (by split <;> simp)
  have hm : m.rng.hi ≤ W := by rw [m3]; simp only; omega
  obtain ⟨t, t1, t2, _, _⟩ := plus_small hW s2 (k := 1) ⟨s3, by omega⟩ (by simp)
  refine ⟨t, ?_, t2⟩
  unfold digitsImpl
  rw [a1, b1]
  simp only [thenB_ok, m1, s1]
  exact t1

/-- C18: `representation_bits<integer<lo, hi>>` compiles for every type, and every value
of the type fits a bit-field of that many bits: two's complement if the type has
negative values, unsigned otherwise. -/
theorem C18_representation_bits_safe (hW : 64 ≤ W) {bw : Bool} {lo hi : Int} (hwf : (Rng.mk lo hi).Wf W) :
    ∃ (r : Rng) (n : Nat), Yields (representationBits W bw lo hi) r n ∧
      ∀ v : Int, lo ≤ v → v ≤ hi →
        if lo < 0 then -(2 ^ (n - 1)) ≤ v ∧ v < 2 ^ (n - 1) else v < 2 ^ n := by
  have ⟨p1, p2⟩ := pow_facts hW
  have rr := hwf.rep hW
  simp only at rr
  obtain ⟨c, c1, c2⟩ := digitsImpl_spec hW (bw := bw) (neg1 := false) (base := 2) (by omega)
    (by unfold Rep; omega) rr.1 rr.2
  simp only [Bool.false_eq_true, and_false, if_false, and_true, Int.add_zero] at c2
  have key : ∀ v : Int, (v.natAbs : Int) < 2 ^ (Nat.log 2 v.natAbs + 1) := by
    intro v
    have := Nat.lt_pow_succ_log_self (b := 2) (by omega) v.natAbs
    have h : (v.natAbs : Int) < ((2 ^ (Nat.log 2 v.natAbs + 1) : Nat) : Int) := by exact_mod_cast this
    push_cast at h
    simpa using h
  set L := max (Nat.log 2 lo.natAbs) (Nat.log 2 hi.natAbs) with hL
  have hLl : (2 : Int) ^ (Nat.log 2 lo.natAbs + 1) ≤ 2 ^ (L + 1) := CTy.two_pow_le (by omega)
  have hLh : (2 : Int) ^ (Nat.log 2 hi.natAbs + 1) ≤ 2 ^ (L + 1) := CTy.two_pow_le (by omega)
  have k1 := key lo
  have k2 := key hi
  refine ⟨c.rng, L + (if lo < 0 then 1 else 0) + 1, ?_, ?_⟩
  · refine yields_of hW ⟨c, c1, rfl, ?_⟩ c2.1
    rw [c2.2]
    congr 1
    have : (Int.toNat 2) = 2 := rfl
    rw [this]
    push_cast
    split <;> omega
  · intro v h1 h2
    split
    · rename_i hneg
      rw [show L + 1 + 1 - 1 = L + 1 by omega]
      omega
    · rename_i hneg
      rw [show L + 0 + 1 = L + 1 by omega]
      omega

example : limitsDigits 128 true (-100) 99 10 = some (.ok (constB 2)) := by decide +kernel
example : limitsDigits 128 true (-128) 127 2 = some (.ok (constB 7)) := by decide +kernel
example : (Rng.mk (-64) 20).Wf 128 ∧ representationBits 128 true (-64) 20 = some (.ok (constB 8)) := by decide +kernel

end
end Verif.Bounded
