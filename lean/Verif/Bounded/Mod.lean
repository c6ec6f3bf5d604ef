import Verif.Bounded.Div

/-!
# Modulus of `bounded::integer`
-/

namespace Verif.Bounded

open Verif

/-- source/bounded/arithmetic/modulus.cpp 34-57 `modulo_round` (all quantities are
`max_unsigned_t` and no operation wraps for a non-zero divisor, so they are
natural numbers). -/
def moduloRound (dl dh d : Nat) : Nat × Nat :=
  if dl / d = dh / d then (dl % d, dh % d) else (0, d - 1)

/-- source/bounded/arithmetic/modulus.cpp 66-77: the loop of `sign_free_value` with
`M = 2^W`, dividend `[dl, dh]`, `divisor.max = mh`, `divisor.min = d`. Division by a
zero divisor, reachable only after `++divisor.min` wraps, is a constant-evaluation
error (`none`). The limit compilers put on constant evaluation steps is not
modelled. -/
def signFreeLoop (M dl dh mh d : Nat) (cur : Nat × Nat) : Option (Nat × Nat) :=
  if cur.1 ≠ 0 ∨ (cur.2 ≠ (mh + M - 1) % M ∧ cur.2 ≠ dh) then
    let r := moduloRound dl dh d
    let cur' := (min cur.1 r.1, max cur.2 r.2)
    if d = mh then some cur'
    else if d + 1 < M then signFreeLoop M dl dh mh (d + 1) cur'
    else if cur'.1 ≠ 0 ∨ (cur'.2 ≠ (mh + M - 1) % M ∧ cur'.2 ≠ dh) then none
    else some cur'
  else some cur
termination_by M - d

/-- source/bounded/arithmetic/modulus.cpp 59-78 `sign_free_value`. -/
def signFreeValue (M dl dh ml mh : Nat) : Option (Nat × Nat) :=
  if ml > dh then some (dl, dh)
  else signFreeLoop M dl dh mh ml (M - 1, 0)

/-- `-static_cast<smax_t>(n)` in a constant expression (signed overflow is an
error). -/
def negSmax (W : Nat) (n : Nat) : Option Int :=
  let v := -((smax W).wrap n)
  if (smax W).Fits v then some v else none

/-- source/bounded/arithmetic/modulus.cpp 80-125 `modulus_operator_range`. -/
def modulusRange (W : Nat) (l r : Rng) : Option (Int × Int) := do
  let M := 2 ^ W
  let divisorMin : Int :=
    if r.lo > 0 then (umax W).wrap r.lo
    else if r.hi < 0 then unsNeg W ((umax W).wrap r.hi)
    else 1
  let divisorMax : Int := max (safeAbs W r.lo) (safeAbs W r.hi)
  let negMin : Int := if l.hi < 0 then safeAbs W l.hi else 0
  let negMax : Int := if l.lo < 0 then safeAbs W l.lo else 0
  let posMin : Int := (umax W).wrap (max l.lo 0)
  let posMax : Int := (umax W).wrap (max l.hi 0)
  let negative ← signFreeValue M negMin.toNat negMax.toNat divisorMin.toNat divisorMax.toNat
  let positive ← signFreeValue M posMin.toNat posMax.toNat divisorMin.toNat divisorMax.toNat
  let hasNegative := decide (l.lo < 0)
  let hasPositive := decide (l.hi > 0)
  if hasNegative ∧ ¬ (negative.2 : Int) ≤ unsNeg W ((umax W).wrap (smax W).lo) then none
  else
    let minType := if hasNegative ∨ (positive.1 : Int) ≤ (smax W).hi then smax W else umax W
    let maxType := if ¬ hasPositive ∨ (positive.2 : Int) ≤ (smax W).hi then smax W else umax W
    let lo := if hasNegative then (negSmax W negative.2).map minType.wrap
      else some (minType.wrap positive.1)
    let hi := if hasPositive then some (maxType.wrap positive.2)
      else (negSmax W negative.1).map maxType.wrap
    return (← lo, ← hi)

/-- `std::common_type_t<A, B, C>` folds from the left. -/
def commonType3 (W : Nat) (a b c : Rng) : Option Rng := do commonType W (← commonType W a b) c

/-- source/bounded/arithmetic/modulus.cpp 130-134: the compile-time part of
`operator%`. -/
def modTy (W : Nat) (a b : Rng) : Option (Rng × CTy) := do
  let range ← modulusRange W a b
  let r ← mkInteger W range.1 range.2
  let c ← commonType3 W r a b
  return (r, c.under W)

/-- source/bounded/arithmetic/modulus.cpp 130-142 `operator%`. -/
def mod (W : Nat) (a b : BInt) : Option (Res BInt) := do
  let (r, common) ← modTy W a.rng b.rng
  return do
    let x ← a.value
    let y ← b.value
    let q ← common.promote.mod (common.wrap x) (common.wrap y)
    return r.unchecked W q

/-! ## The loop -/

theorem moduloRound_sound {dl dh d n : Nat} (hd : 0 < d) (h1 : dl ≤ n) (h2 : n ≤ dh) :
    (moduloRound dl dh d).1 ≤ n % d ∧ n % d ≤ (moduloRound dl dh d).2 := by
  unfold moduloRound
  split
  · rename_i he
    have e1 : dl / d ≤ n / d := Nat.div_le_div_right h1
    have e2 : n / d ≤ dh / d := Nat.div_le_div_right h2
    have m1 := Nat.div_add_mod dl d
    have m2 := Nat.div_add_mod n d
    have m3 := Nat.div_add_mod dh d
    have e3 : n / d = dl / d := by omega
    rw [e3] at m2
    rw [← he] at m3
    simp only
    omega
  · have := Nat.mod_lt n hd
    simp only
    omega

theorem moduloRound_attained {dl dh d : Nat} (hd : 0 < d) (h : dl ≤ dh) :
    (∃ n, dl ≤ n ∧ n ≤ dh ∧ n % d = (moduloRound dl dh d).1) ∧
    (∃ n, dl ≤ n ∧ n ≤ dh ∧ n % d = (moduloRound dl dh d).2) := by
  unfold moduloRound
  split
  · exact ⟨⟨dl, by omega, by omega, rfl⟩, ⟨dh, by omega, by omega, rfl⟩⟩
  · rename_i he
    have e1 : dl / d ≤ dh / d := Nat.div_le_div_right h
    have m1 := Nat.div_add_mod dl d
    have m3 := Nat.div_add_mod dh d
    have hlt := Nat.mod_lt dl hd
    have hq : d * (dl / d + 1) ≤ d * (dh / d) := Nat.mul_le_mul_left d (by omega)
    have hq' : d * (dl / d + 1) = d * (dl / d) + d := by ring
    refine ⟨⟨d * (dh / d), by omega, by omega, by simp⟩,
      ⟨d * (dh / d) - 1, by omega, by omega, ?_⟩⟩
    have : d * (dh / d) - 1 = (d - 1) + d * (dh / d - 1) := by
      have : d * (dh / d) = d * (dh / d - 1) + d := by
        have hpos : 0 < dh / d := Nat.lt_of_le_of_lt (Nat.zero_le _) (Nat.lt_of_le_of_ne e1 he)
        rw [← Nat.mul_succ]; congr 1; omega
      omega
    rw [this, Nat.add_mul_mod_self_left]
    exact Nat.mod_eq_of_lt (by omega)

/-- `n % m` for a dividend in `[dl, dh]` and divisor in `[ml, mh]`. -/
def Attained (dl dh ml mh v : Nat) : Prop :=
  ∃ n m, dl ≤ n ∧ n ≤ dh ∧ ml ≤ m ∧ m ≤ mh ∧ n % m = v

theorem signFreeLoop_spec {M dl dh ml mh : Nat} (hM : mh < M) (hM2 : 2 ≤ M) (hml : 1 ≤ ml)
    (hdl : dl ≤ dh) : ∀ (d : Nat) (cur : Nat × Nat), ml ≤ d → d ≤ mh →
    (∀ n m, dl ≤ n → n ≤ dh → ml ≤ m → m < d → cur.1 ≤ n % m ∧ n % m ≤ cur.2) →
    (Attained dl dh ml mh cur.1 ∧ Attained dl dh ml mh cur.2 ∨ cur = (M - 1, 0) ) →
    (dh < M) →
    ∃ p, signFreeLoop M dl dh mh d cur = some p ∧
      (∀ n m, dl ≤ n → n ≤ dh → ml ≤ m → m ≤ mh → p.1 ≤ n % m ∧ n % m ≤ p.2) ∧
      Attained dl dh ml mh p.1 ∧ Attained dl dh ml mh p.2 := by
  intro d
  induction hk : mh - d generalizing d with
  | zero =>
    intro cur hd hd2 hs ha hdh
    have hdm : d = mh := by omega
    subst hdm
    unfold signFreeLoop
    split
    · refine ⟨_, by simp; rfl, ?_, ?_⟩
      · intro n m h1 h2 h3 h4
        simp only
        by_cases hm : m = d
        · subst hm
          have := moduloRound_sound (dl := dl) (dh := dh) (d := m) (by omega) h1 h2
          omega
        · have := hs n m h1 h2 h3 (by omega)
          omega
      · obtain ⟨⟨n1, a1, a2, a3⟩, ⟨n2, b1, b2, b3⟩⟩ := moduloRound_attained (d := d) (by omega) hdl
        have A1 : Attained dl dh ml d (moduloRound dl dh d).1 := ⟨n1, d, a1, a2, hd, by omega, a3⟩
        have A2 : Attained dl dh ml d (moduloRound dl dh d).2 := ⟨n2, d, b1, b2, hd, by omega, b3⟩
        rcases ha with ⟨ha1, ha2⟩ | hc
        · simp only
          constructor
          · rcases min_choice cur.1 (moduloRound dl dh d).1 with e | e <;> rw [e] <;> assumption
          · rcases max_choice cur.2 (moduloRound dl dh d).2 with e | e <;> rw [e] <;> assumption
        · subst hc
          have hb : n1 % d < d := Nat.mod_lt _ (by omega)
          simp only
          rw [Nat.min_eq_right (by omega), Nat.max_eq_right (by omega)]
          exact ⟨A1, A2⟩
    · rename_i hc
      refine ⟨cur, rfl, ?_, ?_⟩
      · intro n m h1 h2 h3 h4
        have hml := Nat.mod_lt n (show 0 < m by omega)
        have hle := Nat.mod_le n m
        have hd1 : (d + M - 1) % M = d - 1 := by
          rw [show d + M - 1 = (d - 1) + M by omega, Nat.add_mod_right, Nat.mod_eq_of_lt (by omega)]
        rw [hd1] at hc
        omega
      · rcases ha with h | h
        · exact h
        · subst h; simp at hc; omega
  | succ k ih =>
    intro cur hd hd2 hs ha hdh
    unfold signFreeLoop
    split
    · have hne : d ≠ mh := by omega
      simp only [hne, if_false]
      rw [if_pos (by omega)]
      obtain ⟨⟨n1, a1, a2, a3⟩, ⟨n2, b1, b2, b3⟩⟩ := moduloRound_attained (d := d) (by omega) hdl
      have A1 : Attained dl dh ml mh (moduloRound dl dh d).1 := ⟨n1, d, a1, a2, hd, by omega, a3⟩
      have A2 : Attained dl dh ml mh (moduloRound dl dh d).2 := ⟨n2, d, b1, b2, hd, by omega, b3⟩
      apply ih (d + 1) (by omega) _ (by omega) (by omega) _ _ hdh
      · intro n m h1 h2 h3 h4
        simp only
        by_cases hm : m = d
        · subst hm
          have := moduloRound_sound (dl := dl) (dh := dh) (d := m) (by omega) h1 h2
          omega
        · have := hs n m h1 h2 h3 (by omega)
          omega
      · left
        rcases ha with ⟨ha1, ha2⟩ | hc
        · simp only
          constructor
          · rcases min_choice cur.1 (moduloRound dl dh d).1 with e | e <;> rw [e] <;> assumption
          · rcases max_choice cur.2 (moduloRound dl dh d).2 with e | e <;> rw [e] <;> assumption
        · subst hc
          have hb : n1 % d < d := Nat.mod_lt _ (by omega)
          simp only
          rw [Nat.min_eq_right (by omega), Nat.max_eq_right (by omega)]
          exact ⟨A1, A2⟩
    · rename_i hc
      refine ⟨cur, rfl, ?_, ?_⟩
      · intro n m h1 h2 h3 h4
        have hml := Nat.mod_lt n (show 0 < m by omega)
        have hle := Nat.mod_le n m
        have hd1 : (mh + M - 1) % M = mh - 1 := by
          rw [show mh + M - 1 = (mh - 1) + M by omega, Nat.add_mod_right, Nat.mod_eq_of_lt (by omega)]
        rw [hd1] at hc
        omega
      · rcases ha with h | h
        · exact h
        · subst h; simp at hc; omega

theorem signFreeValue_spec {M dl dh ml mh : Nat} (hM : mh < M) (hM2 : 2 ≤ M) (hml : 1 ≤ ml)
    (hmle : ml ≤ mh) (hdl : dl ≤ dh) (hdh : dh < M) :
    ∃ p, signFreeValue M dl dh ml mh = some p ∧
      (∀ n m, dl ≤ n → n ≤ dh → ml ≤ m → m ≤ mh → p.1 ≤ n % m ∧ n % m ≤ p.2) ∧
      Attained dl dh ml mh p.1 ∧ Attained dl dh ml mh p.2 := by
  unfold signFreeValue
  split
  · rename_i h
    refine ⟨_, rfl, ?_, ⟨dl, ml, by omega, by omega, by omega, by omega, Nat.mod_eq_of_lt (by omega)⟩,
      ⟨dh, ml, by omega, by omega, by omega, by omega, Nat.mod_eq_of_lt (by omega)⟩⟩
    intro n m h1 h2 h3 h4
    rw [Nat.mod_eq_of_lt (by omega)]
    exact ⟨h1, h2⟩
  · exact signFreeLoop_spec hM hM2 hml hdl ml _ (by omega) hmle (by intros; omega) (Or.inr rfl) hdh

/-! ## The range -/

theorem tmod_abs (a b : Int) :
    a.tmod b = if a < 0 then -((a.natAbs % b.natAbs : Nat) : Int) else ((a.natAbs % b.natAbs : Nat) : Int) := by
  split
  · rename_i h
    obtain ⟨n, rfl⟩ : ∃ n : Nat, a = -(n : Int) := ⟨a.natAbs, by omega⟩
    rw [Int.neg_tmod, Int.tmod_eq_emod_of_nonneg (by omega), ← Int.emod_natAbs_of_nonneg' ]
    simp
  · rename_i h
    obtain ⟨n, rfl⟩ : ∃ n : Nat, a = (n : Int) := ⟨a.natAbs, by omega⟩
    rw [Int.tmod_eq_emod_of_nonneg (by omega), ← Int.emod_natAbs_of_nonneg']
    simp
where
  Int.emod_natAbs_of_nonneg' {n : Nat} {b : Int} : ((n : Int) % (b.natAbs : Int)) = (n : Int) % b := by
    rcases Int.natAbs_eq b with h | h
    · rw [← h]
    · rw [h]; simp

section
variable {W : Nat}

theorem negSmax_eq (hW : 64 ≤ W) {n : Nat} (h : (n : Int) ≤ 2 ^ (W - 1)) {v : Int}
    (hv : negSmax W n = some v) : v = -(n : Int) ∧ (n : Int) < 2 ^ (W - 1) := by
  have ⟨h1, h2⟩ := pow_facts hW
  unfold negSmax at hv
  by_cases hlt : (n : Int) < 2 ^ (W - 1)
  · rw [smax_wrap_of hW (by omega) hlt] at hv
    simp only at hv
    split at hv
    · simp at hv; omega
    · simp at hv
  · have hn : (n : Int) = 2 ^ (W - 1) := by omega
    have hw : (smax W).wrap n = -(2 ^ (W - 1)) := by
      rw [← smax_wrap_emod hW (v := -(2 ^ (W - 1))) (by omega) (by omega), hn]
      congr 1
      rw [← Int.add_emod_right (a := -(2 ^ (W - 1)))]
      rw [Int.emod_eq_of_lt (by omega) (by omega)]
      omega
    rw [hw] at hv
    simp only at hv
    split at hv
    · rename_i hf
      unfold CTy.Fits at hf
      rw [smax_hi] at hf
      omega
    · simp at hv

theorem divMin_eq (hW : 64 ≤ W) {r : Rng} (hr : Rep W r.lo ∧ Rep W r.hi) (hrle : r.lo ≤ r.hi) :
    ∃ A : Nat, (if r.lo > 0 then (umax W).wrap r.lo
      else if r.hi < 0 then unsNeg W ((umax W).wrap r.hi) else 1).toNat = A ∧
      (r.lo > 0 → (A : Int) = r.lo) ∧ (r.hi < 0 → (A : Int) = -r.hi) ∧
        (r.lo ≤ 0 → 0 ≤ r.hi → A = 1) := by
  have ⟨h1, h2⟩ := pow_facts hW
  unfold Rep at hr
  refine ⟨_, rfl, ?_, ?_, ?_⟩
  · intro hp
    rw [if_pos hp, umax_wrap, Int.emod_eq_of_lt (by omega) (by omega), Int.toNat_of_nonneg (by omega)]
  · intro hn
    rw [if_neg (by omega), if_pos hn, umax_wrap]
    unfold unsNeg
    rw [neg_emod_emod, Int.emod_eq_of_lt (by omega) (by omega), Int.toNat_of_nonneg (by omega)]
  · intro h3 h4
    rw [if_neg (by omega), if_neg (by omega)]; rfl

theorem absToNat (hW : 64 ≤ W) {v : Int} (hv : Rep W v) : (safeAbs W v).toNat = v.natAbs := by
  rw [safeAbs_eq hW hv, Int.abs_eq_natAbs]; rfl

theorem safeAbs_nat (hW : 64 ≤ W) {v : Int} (hv : Rep W v) : safeAbs W v = v.natAbs := by
  rw [safeAbs_eq hW hv, Int.abs_eq_natAbs]

/-- The second half of the computation, given the two magnitude ranges. -/
theorem modulus_final {l r : Rng} (hlle : l.lo ≤ l.hi) {A B nl nh pl ph : Nat} {n q : Nat × Nat}
    {lo hi : Int}
    (memDiv : ∀ y, r.Mem y → y ≠ 0 → A ≤ y.natAbs ∧ y.natAbs ≤ B)
    (divMem : ∀ m, A ≤ m → m ≤ B → ∃ y, r.Mem y ∧ y ≠ 0 ∧ y.natAbs = m)
    (hnl : (l.hi < 0 → nl = l.hi.natAbs) ∧ (0 ≤ l.hi → nl = 0))
    (hnh : (l.lo < 0 → nh = l.lo.natAbs) ∧ (0 ≤ l.lo → nh = 0))
    (hpl : (pl : Int) = max l.lo 0) (hph : (ph : Int) = max l.hi 0)
    (nS : ∀ x m, nl ≤ x → x ≤ nh → A ≤ m → m ≤ B → n.1 ≤ x % m ∧ x % m ≤ n.2)
    (nA1 : Attained nl nh A B n.1) (nA2 : Attained nl nh A B n.2)
    (qS : ∀ x m, pl ≤ x → x ≤ ph → A ≤ m → m ≤ B → q.1 ≤ x % m ∧ x % m ≤ q.2)
    (qA1 : Attained pl ph A B q.1) (qA2 : Attained pl ph A B q.2)
    (elo : (l.lo < 0 → lo = -(n.2 : Int)) ∧ (0 ≤ l.lo → lo = q.1))
    (ehi : (0 < l.hi → hi = q.2) ∧ (l.hi ≤ 0 → hi = -(n.1 : Int))) :
    (∀ x y, l.Mem x → r.Mem y → y ≠ 0 → lo ≤ x.tmod y ∧ x.tmod y ≤ hi) ∧
    (∃ x y, l.Mem x ∧ r.Mem y ∧ y ≠ 0 ∧ x.tmod y = lo) ∧
    (∃ x y, l.Mem x ∧ r.Mem y ∧ y ≠ 0 ∧ x.tmod y = hi) := by
  refine ⟨?_, ?_, ?_⟩
  · intro x y hx hy hy0
    have hd := memDiv y hy hy0
    clear memDiv divMem nA1 nA2 qA1 qA2
    unfold Rng.Mem at hx
    rw [tmod_abs]
    split
    · have s := nS x.natAbs y.natAbs (by omega) (by omega) hd.1 hd.2
      clear nS qS
      generalize x.natAbs % y.natAbs = z at *
      omega
    · have s := qS x.natAbs y.natAbs (by omega) (by omega) hd.1 hd.2
      constructor
      · clear nS qS
        generalize x.natAbs % y.natAbs = z at *
        omega
      · by_cases hp : 0 < l.hi
        · rw [ehi.1 hp]; omega
        · rw [ehi.2 (by omega)]
          have : x = 0 := by omega
          subst this
          have := nS 0 y.natAbs (by omega) (by omega) hd.1 hd.2
          simp at this ⊢
          omega
  · clear nS qS memDiv
    by_cases hp : l.lo < 0
    · obtain ⟨k, m, k1, k2, k3, k4, k5⟩ := nA2
      obtain ⟨y, y1, y2, y3⟩ := divMem m k3 k4
      refine ⟨-(k : Int), y, by unfold Rng.Mem; omega, y1, y2, ?_⟩
      rw [elo.1 hp, tmod_abs, y3, Int.natAbs_neg, Int.natAbs_natCast, k5]
      split
      · rfl
      · have : k = 0 := by omega
        subst this; simp at k5; omega
    · obtain ⟨k, m, k1, k2, k3, k4, k5⟩ := qA1
      obtain ⟨y, y1, y2, y3⟩ := divMem m k3 k4
      refine ⟨(k : Int), y, by unfold Rng.Mem; omega, y1, y2, ?_⟩
      rw [elo.2 (by omega), tmod_abs, y3, Int.natAbs_natCast, k5, if_neg (by omega)]
  · clear nS qS memDiv
    by_cases hp : 0 < l.hi
    · obtain ⟨k, m, k1, k2, k3, k4, k5⟩ := qA2
      obtain ⟨y, y1, y2, y3⟩ := divMem m k3 k4
      by_cases hk : l.lo ≤ k
      · refine ⟨(k : Int), y, by unfold Rng.Mem; omega, y1, y2, ?_⟩
        rw [ehi.1 hp, tmod_abs, y3, Int.natAbs_natCast, k5, if_neg (by omega)]
      · omega
    · obtain ⟨k, m, k1, k2, k3, k4, k5⟩ := nA1
      obtain ⟨y, y1, y2, y3⟩ := divMem m k3 k4
      refine ⟨-(k : Int), y, by unfold Rng.Mem; omega, y1, y2, ?_⟩
      rw [ehi.2 (by omega), tmod_abs, y3, Int.natAbs_neg, Int.natAbs_natCast, k5]
      split
      · rfl
      · have : k = 0 := by omega
        subst this; simp at k5; omega

theorem modulusRange_spec (hW : 64 ≤ W) {l r : Rng} (hl : Rep W l.lo ∧ Rep W l.hi)
    (hr : Rep W r.lo ∧ Rep W r.hi) (hlle : l.lo ≤ l.hi) (hrle : r.lo ≤ r.hi)
    (hnz : r.lo ≠ 0 ∨ r.hi ≠ 0) {p : Int × Int} (h : modulusRange W l r = some p) :
    (∀ x y, l.Mem x → r.Mem y → y ≠ 0 → p.1 ≤ x.tmod y ∧ x.tmod y ≤ p.2) ∧
    (∃ x y, l.Mem x ∧ r.Mem y ∧ y ≠ 0 ∧ x.tmod y = p.1) ∧
    (∃ x y, l.Mem x ∧ r.Mem y ∧ y ≠ 0 ∧ x.tmod y = p.2) := by
  have ⟨h1, h2⟩ := pow_facts hW
  have hMc : ((2 ^ W : Nat) : Int) = 2 ^ W := by push_cast; rfl
  -- the divisor magnitudes
  obtain ⟨A, hA, hA1, hA2, hA3⟩ := divMin_eq hW hr hrle
  obtain ⟨B, hB, hB2⟩ : ∃ B : Nat, (max (safeAbs W r.lo) (safeAbs W r.hi)).toNat = B ∧
      B = max r.lo.natAbs r.hi.natAbs := by
    refine ⟨_, rfl, ?_⟩
    rw [safeAbs_nat hW hr.1, safeAbs_nat hW hr.2]
    omega
  obtain ⟨nl, hnl, hnl2⟩ : ∃ n : Nat, (if l.hi < 0 then safeAbs W l.hi else 0).toNat = n ∧
      ((l.hi < 0 → n = l.hi.natAbs) ∧ (0 ≤ l.hi → n = 0)) := by
    refine ⟨_, rfl, ?_, ?_⟩
    · intro hn; rw [if_pos hn, absToNat hW hl.2]
    · intro hn; rw [if_neg (by omega)]; rfl
  obtain ⟨nh, hnh, hnh2⟩ : ∃ n : Nat, (if l.lo < 0 then safeAbs W l.lo else 0).toNat = n ∧
      ((l.lo < 0 → n = l.lo.natAbs) ∧ (0 ≤ l.lo → n = 0)) := by
    refine ⟨_, rfl, ?_, ?_⟩
    · intro hn; rw [if_pos hn, absToNat hW hl.1]
    · intro hn; rw [if_neg (by omega)]; rfl
  unfold Rep at hl hr
  obtain ⟨pl, hpl, hpl2⟩ : ∃ n : Nat, ((umax W).wrap (max l.lo 0)).toNat = n ∧ (n : Int) = max l.lo 0 := by
    refine ⟨_, rfl, ?_⟩
    rw [umax_wrap, Int.emod_eq_of_lt (by omega) (by omega), Int.toNat_of_nonneg (by omega)]
  obtain ⟨ph, hph, hph2⟩ : ∃ n : Nat, ((umax W).wrap (max l.hi 0)).toNat = n ∧ (n : Int) = max l.hi 0 := by
    refine ⟨_, rfl, ?_⟩
    rw [umax_wrap, Int.emod_eq_of_lt (by omega) (by omega), Int.toNat_of_nonneg (by omega)]
  unfold modulusRange at h
  simp only [hA, hB, hnl, hnh, hpl, hph, Option.bind_eq_bind] at h
  clear hA hB hnl hnh hpl hph
  have memDiv : ∀ y, r.Mem y → y ≠ 0 → A ≤ y.natAbs ∧ y.natAbs ≤ B := by
    clear h
    intro y hy hy0
    unfold Rng.Mem at hy
    rw [hB2]
    omega
  have divMem : ∀ m, A ≤ m → m ≤ B → ∃ y, r.Mem y ∧ y ≠ 0 ∧ y.natAbs = m := by
    clear h
    intro m hm1 hm2
    unfold Rng.Mem
    rw [hB2] at hm2
    by_cases hp : r.lo ≤ m ∧ (m : Int) ≤ r.hi
    · exact ⟨m, hp, by omega, by simp⟩
    · exact ⟨-m, by omega, by omega, by simp⟩
  have hAB : 1 ≤ A ∧ A ≤ B ∧ B < 2 ^ W := by
    clear h
    zify
    rw [hB2]
    refine ⟨?_, ?_, ?_⟩ <;> omega
  have hnlh : nl ≤ nh ∧ nh < 2 ^ W := by
    clear h
    zify; constructor <;> omega
  have hplh : pl ≤ ph ∧ ph < 2 ^ W := by
    clear h
    zify; constructor <;> omega
  have hM2 : 2 ≤ 2 ^ W := by clear h; zify; omega
  obtain ⟨n, hn, nS, nA1, nA2⟩ := signFreeValue_spec hAB.2.2 hM2 hAB.1 hAB.2.1 hnlh.1 hnlh.2
  obtain ⟨q, hq, qS, qA1, qA2⟩ := signFreeValue_spec hAB.2.2 hM2 hAB.1 hAB.2.1 hplh.1 hplh.2
  simp only [hn, hq, Option.bind_some] at h
  clear hn hq
  have hmin : unsNeg W ((umax W).wrap (smax W).lo) = 2 ^ (W - 1) := by
    unfold unsNeg
    rw [umax_wrap, neg_emod_emod, smax_lo, Int.neg_neg, Int.emod_eq_of_lt (by omega) (by omega)]
  rw [hmin] at h
  split at h
  · simp at h
  rename_i hassert
  simp only [decide_eq_true_eq, Int.not_le] at hassert
  simp only [Option.bind_eq_some_iff, Option.pure_def, Option.some.injEq] at h
  obtain ⟨lo, hlo, hi, hhi, rfl⟩ := h
  -- remainders as bounded quantities
  have leMod : ∀ dl dh v, Attained dl dh A B v → v ≤ dh := by
    rintro dl dh v ⟨n, m, -, h2, -, -, h5⟩
    have := Nat.mod_le n m
    omega
  have qlt1 := leMod _ _ _ qA1
  have qlt2 := leMod _ _ _ qA2
  have nlt1 := leMod _ _ _ nA1
  have nlt2 := leMod _ _ _ nA2
  have n12 : n.1 ≤ n.2 := by
    obtain ⟨k, m, h1, h2, h3, h4, -⟩ := nA1
    have := nS k m h1 h2 h3 h4; omega
  refine modulus_final hlle memDiv divMem hnl2 hnh2 hpl2 hph2 nS nA1 nA2 qS qA1 qA2 ?_ ?_
  · clear nS nA1 nA2 qS qA1 qA2 memDiv divMem leMod hhi
    constructor
    · intro hneg
      rw [if_pos (by simpa using hneg)] at hlo
      simp only [Option.map_eq_some_iff] at hlo
      obtain ⟨v, hv, rfl⟩ := hlo
      have hv := negSmax_eq hW (by omega) hv
      rw [if_pos (by left; simpa using hneg), smax_wrap_of hW (by omega) (by omega)]
      exact hv.1
    · intro hpos
      rw [if_neg (by simpa using hpos)] at hlo
      simp only [Option.some.injEq] at hlo
      split at hlo
      · rename_i hc
        simp only [decide_eq_true_eq, smax_hi] at hc
        rw [smax_wrap_of hW (by omega) (by omega)] at hlo
        exact hlo.symm
      · rw [umax_wrap, Int.emod_eq_of_lt (by omega) (by omega)] at hlo
        exact hlo.symm
  · clear nS nA1 nA2 qS qA1 qA2 memDiv divMem leMod hlo
    constructor
    · intro hpos
      rw [if_pos (by simpa using hpos)] at hhi
      simp only [Option.some.injEq] at hhi
      split at hhi
      · rename_i hc
        simp only [smax_hi] at hc
        have : (q.2 : Int) ≤ 2 ^ (W - 1) - 1 := by
          rcases hc with hc | hc
          · simp at hc; omega
          · exact hc
        rw [smax_wrap_of hW (by omega) (by omega)] at hhi
        exact hhi.symm
      · rw [umax_wrap, Int.emod_eq_of_lt (by omega) (by omega)] at hhi
        exact hhi.symm
    · intro hneg
      rw [if_neg (by simpa using hneg)] at hhi
      simp only [Option.map_eq_some_iff] at hhi
      obtain ⟨v, hv, rfl⟩ := hhi
      have hv := negSmax_eq hW (by omega) hv
      rw [if_pos (by left; simpa using hneg), smax_wrap_of hW (by omega) (by omega)]
      exact hv.1

end
end Verif.Bounded
