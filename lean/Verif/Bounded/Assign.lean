import Verif.Bounded.MinMaxProps

/-!
# `assume_in_range`, assignment, compound assignment, increment and decrement
-/

namespace Verif.Bounded

open Verif

/-- `bounded::constant<v>` (source/bounded/integer.cpp 113-114). -/
def constB (v : Int) : BInt := ⟨⟨v, v⟩, v⟩

/-- source/bounded/integer.cpp 78-84 `assume_in_range_impl` for a bounded value and
constant bounds. The `unchecked` constructor is constrained by `overlapping_integer`
(lines 132, 177). -/
def assumeImpl (W : Nat) (v : BInt) (lo hi : Int) : Option (Res BInt) := do
  let r ← mkInteger W (safeMax W lo v.rng.lo) (safeMin W hi v.rng.hi)
  if v.rng.overlaps W r then some (do return r.unchecked W (← v.value)) else none

/-- source/bounded/integer.cpp 88-93 `assume_in_range(value, constant<lo>, constant<hi>)`. -/
def assumeInRange (W : Nat) (v : BInt) (lo hi : Int) : Option (Res BInt) := do
  match ← assumeImpl W v lo hi with
  | .ok c => some (do
      if (← compareB W v (constB lo)) = .lt then .ub
      else if (← compareB W (constB hi) v) = .lt then .ub
      else return c)
  | .ub => some .ub
  | .exn => some .exn

/-- Assignment from any bounded integer. Same type: the defaulted copy assignment
(source/bounded/integer.cpp 139-140, 188-189). Constant target: 142-147. Otherwise
191-193. -/
def assign (W : Nat) (x other : BInt) : Option (Res BInt) :=
  if x.rng = other.rng then some (.ok other)
  else if !(other.rng.overlaps W x.rng) then none
  else if x.rng.lo = x.rng.hi then some (do
    if ← equalB W other (constB x.rng.lo) then return x else .ub)
  else do
    match ← assumeInRange W other x.rng.lo x.rng.hi with
    | .ok c => if c.rng = x.rng then some (.ok c) else convert W x.rng c
    | .ub => some .ub
    | .exn => some .exn

/-- One statement that changes a bounded integer variable. -/
inductive Step where
  | assign (y : BInt)
  | add (y : BInt)
  | sub (y : BInt)
  | mul (y : BInt)
  | div (y : BInt)
  | inc
  | dec
  deriving Repr

/-- The compound assignment operators come from the `operators` submodule
(source/bounded/arithmetic/increment_decrement.cpp 23): `x op= y` is `x = x op y`. -/
def compound (W : Nat) (op : Nat → BInt → BInt → Option (Res BInt)) (x y : BInt) :
    Option (Res BInt) := do
  match ← op W x y with
  | .ok c => assign W x c
  | .ub => some .ub
  | .exn => some .exn

/-- Running one statement; `++x` is `x += constant<1>` and `--x` is `x -= constant<1>`
(source/bounded/arithmetic/increment_decrement.cpp 41-47). -/
def Step.run (W : Nat) (x : BInt) : Step → Option (Res BInt)
  | .assign y => Bounded.assign W x y
  | .add y => compound W plus x y
  | .sub y => compound W minus x y
  | .mul y => compound W Bounded.mul x y
  | .div y => compound W Bounded.div x y
  | .inc => compound W plus x (constB 1)
  | .dec => compound W minus x (constB 1)

/-- A sequence of statements on one variable. -/
def runSteps (W : Nat) (x : BInt) : List Step → Option (Res BInt)
  | [] => some (.ok x)
  | s :: ss => do
    match ← s.run W x with
    | .ok x' => runSteps W x' ss
    | .ub => some .ub
    | .exn => some .exn

/-! ## Facts -/

section
variable {W : Nat}

theorem plus_holds (hW : 64 ≤ W) {a b : BInt} {x y : Int} (ha : Holds W a x) (hb : Holds W b y)
    (hc : plus W a b ≠ none) : ∃ c, plus W a b = some (.ok c) ∧ Holds W c (x + y) := by
  cases hr : plusTy W a.rng b.rng with
  | none => exact absurd (by unfold plus; rw [hr]; rfl) hc
  | some r =>
    obtain ⟨c, h1, h2, h3, h4, h5⟩ := plus_value hW ha.1 hb.1 hr ha.2 hb.2
    exact ⟨c, h1, by rw [h2]; exact h5, h3⟩

theorem neg_holds (hW : 64 ≤ W) {a : BInt} {x : Int} (ha : Holds W a x)
    (hc : neg W a ≠ none) : ∃ c, neg W a = some (.ok c) ∧ Holds W c (-x) := by
  cases hr : negTy W a.rng with
  | none => exact absurd (by unfold neg; rw [hr]; rfl) hc
  | some r =>
    obtain ⟨c, h1, h2, h3, h4, h5⟩ := neg_value hW ha.1 hr ha.2
    exact ⟨c, h1, by rw [h2]; exact h5, h3⟩

theorem minus_holds (hW : 64 ≤ W) {a b : BInt} {x y : Int} (ha : Holds W a x) (hb : Holds W b y)
    (hc : minus W a b ≠ none) : ∃ c, minus W a b = some (.ok c) ∧ Holds W c (x - y) := by
  cases hr : minusTy W a.rng b.rng with
  | none =>
    refine absurd ?_ hc
    unfold minusTy at hr
    unfold minus
    cases hn : negTy W b.rng with
    | none => unfold neg; rw [hn]; rfl
    | some nt =>
      rw [hn] at hr
      simp only [Option.bind_eq_bind, Option.bind_some] at hr
      simp [hn, hr]
  | some r =>
    obtain ⟨c, h1, h2, h3, h4, h5⟩ := minus_value hW ha.1 hb.1 hr ha.2 hb.2
    exact ⟨c, h1, by rw [h2]; exact h5, h3⟩

/-- No bound of the product lies below the widest signed type. -/
abbrev MulSafe (W : Nat) (a b : Rng) : Prop :=
  ∀ p ∈ [a.lo * b.lo, a.lo * b.hi, a.hi * b.lo, a.hi * b.hi], -(2 ^ (W - 1)) ≤ p

theorem mul_holds (hW : 64 ≤ W) {a b : BInt} {x y : Int} (ha : Holds W a x) (hb : Holds W b y)
    (hlo : MulSafe W a.rng b.rng)
    (hc : mul W a b ≠ none) : ∃ c, mul W a b = some (.ok c) ∧ Holds W c (x * y) := by
  have hl : -(2 ^ (W - 1)) ≤ (mulRange a.rng b.rng).lo := by
    unfold MulSafe at hlo
    simp at hlo
    unfold mulRange; simp only; omega
  cases hr : mulTy W a.rng b.rng with
  | none => exact absurd (by unfold mul; rw [hr]; rfl) hc
  | some r =>
    obtain ⟨c, h1, h2, h3, h4, h5⟩ := mul_value hW ha.1 hb.1 hl hr ha.2 hb.2
    exact ⟨c, h1, by rw [h2]; exact h5, h3⟩

theorem div_holds (hW : 64 ≤ W) {a b : BInt} {x y : Int} (ha : Holds W a x) (hb : Holds W b y)
    (hc : div W a b ≠ none) :
    (y ≠ 0 → ∃ c, div W a b = some (.ok c) ∧ Holds W c (x.tdiv y)) ∧
    (y = 0 → div W a b = some .ub) := by
  cases hr : divTy W a.rng b.rng with
  | none => exact absurd (by unfold div; rw [hr]; rfl) hc
  | some p =>
    have h := div_value hW ha.1 hb.1 hr ha.2 hb.2
    refine ⟨fun hy => ?_, h.2⟩
    obtain ⟨c, h1, h2, h3, h5⟩ := h.1 hy
    exact ⟨c, h1, by rw [h2]; exact h5, h3⟩

theorem constB_holds (hW : 64 ≤ W) {v : Int} (h : Rep W v) : Holds W (constB v) v := by
  refine ⟨?_, by simp [constB, BInt.value]⟩
  rw [wf_iff hW]
  have ⟨p1, p2⟩ := pow_facts hW
  unfold Storable constB
  unfold Rep at h
  simp only
  omega

theorem convert_holds (hW : 64 ≤ W) {r : Rng} {b : BInt} {x : Int} (hr : r.Wf W) (hb : Holds W b x)
    (h : r.lo ≤ b.rng.lo ∧ b.rng.hi ≤ r.hi) : ∃ c, convert W r b = some (.ok c) ∧ c.rng = r ∧ Holds W c x := by
  have rr := hr.rep hW
  have rb := hb.1.rep hW
  have wb := ((wf_iff hW _).mp hb.1).1
  have mx := value_mem hb.2 wb
  unfold Rng.Mem at mx
  have hbb : b.rng.boundedBy W r = true := by
    unfold Rng.boundedBy
    rw [overlaps_eq hW hb.1 hr, safeCompare_norm hW rr.1 rb.1, safeCompare_norm hW rb.2 rr.2,
      isLE_compare, isLE_compare]
    simp; omega
  unfold convert
  rw [if_pos hbb]
  simp only [hb.2, Res.ok_bind, Res.pure_def]
  exact ⟨_, rfl, rfl, hr, unchecked_value hW hr (by unfold Rng.Mem; omega) rfl⟩

theorem assumeImpl_spec (hW : 64 ≤ W) {v : BInt} {x lo hi : Int} (hv : Holds W v x)
    (hlo : Rep W lo) (hhi : Rep W hi) (hne : lo ≤ v.rng.hi ∧ v.rng.lo ≤ hi) (hlh : lo ≤ hi) :
    ∃ c, assumeImpl W v lo hi = some (.ok c) ∧ c.rng = ⟨max lo v.rng.lo, min hi v.rng.hi⟩ ∧
      c.rng.Wf W ∧ (lo ≤ x → x ≤ hi → Holds W c x) := by
  have ⟨p1, p2⟩ := pow_facts hW
  have wv := (wf_iff hW _).mp hv.1
  have rv := hv.1.rep hW
  have mx := value_mem hv.2 wv.1
  unfold Rng.Mem at mx
  have hmk : mkInteger W (max lo v.rng.lo) (min hi v.rng.hi) =
      some ⟨max lo v.rng.lo, min hi v.rng.hi⟩ := by
    rw [mkInteger_eq hW, if_pos]
    obtain ⟨w1, w2⟩ := wv
    unfold Storable at w2 ⊢
    unfold Rep at hlo hhi
    omega
  have hwf := wf_of_mk hW hmk
  unfold assumeImpl
  rw [safeMax_eq hW hlo rv.1, safeMin_eq hW hhi rv.2, hmk]
  simp only [Option.bind_eq_bind, Option.bind_some]
  rw [overlaps_eq hW hv.1 hwf, if_pos (by simp; omega), hv.2]
  refine ⟨_, rfl, rfl, hwf, fun h1 h2 => ⟨hwf, unchecked_value hW hwf ?_ rfl⟩⟩
  unfold Rng.Mem; simp only; omega

theorem assumeInRange_spec (hW : 64 ≤ W) {v : BInt} {x lo hi : Int} (hv : Holds W v x)
    (hlo : Rep W lo) (hhi : Rep W hi) (hne : lo ≤ v.rng.hi ∧ v.rng.lo ≤ hi) (hlh : lo ≤ hi) :
    (lo ≤ x ∧ x ≤ hi → ∃ c, assumeInRange W v lo hi = some (.ok c) ∧
      c.rng = ⟨max lo v.rng.lo, min hi v.rng.hi⟩ ∧ Holds W c x) ∧
    (¬ (lo ≤ x ∧ x ≤ hi) → assumeInRange W v lo hi = some .ub) := by
  obtain ⟨c, h1, h2, h3, h4⟩ := assumeImpl_spec hW hv hlo hhi hne hlh
  obtain ⟨o, ho, a1, a2, a3⟩ := C09_compare_exact hW hv.1 (constB_holds hW hlo).1 hv.2 (constB_holds hW hlo).2
  obtain ⟨o', ho', b1, b2, b3⟩ := C09_compare_exact hW (constB_holds hW hhi).1 hv.1 (constB_holds hW hhi).2 hv.2
  unfold assumeInRange
  rw [h1]
  simp only [Option.bind_eq_bind, Option.bind_some, ho, ho', Res.ok_bind, Res.pure_def]
  refine ⟨fun h => ⟨c, ?_, h2, h4 h.1 h.2⟩, fun h => ?_⟩
  · rw [if_neg (by rw [a1]; omega), if_neg (by rw [b1]; omega)]
  · by_cases hx : x < lo
    · rw [if_pos (a1.mpr hx)]
    · rw [if_neg (fun e => hx (a1.mp e)), if_pos (b1.mpr (by omega))]

/-- Assignment stores the value exactly or is undefined. -/
theorem assign_spec (hW : 64 ≤ W) {x other : BInt} {v y : Int} (hx : Holds W x v)
    (ho : Holds W other y) (hc : assign W x other ≠ none) :
    (x.rng.lo ≤ y ∧ y ≤ x.rng.hi → ∃ c, assign W x other = some (.ok c) ∧ c.rng = x.rng ∧ Holds W c y) ∧
    (¬ (x.rng.lo ≤ y ∧ y ≤ x.rng.hi) → assign W x other = some .ub) := by
  have wx := (wf_iff hW _).mp hx.1
  have wo := (wf_iff hW _).mp ho.1
  have rx := hx.1.rep hW
  have mx := value_mem hx.2 wx.1
  have mo := value_mem ho.2 wo.1
  unfold Rng.Mem at mx mo
  unfold assign at hc ⊢
  split
  · rename_i he
    refine ⟨fun _ => ⟨other, rfl, he.symm, ho⟩, fun h => ?_⟩
    rw [he] at h; exact absurd mo h
  · rename_i hne
    rw [if_neg hne] at hc
    rw [overlaps_eq hW ho.1 hx.1] at hc ⊢
    split at hc
    · exact absurd rfl hc
    · rename_i hov
      simp at hov
      rw [if_neg (by simpa using hov)]
      split
      · rename_i hcst
        obtain ⟨q, hq, hq'⟩ := C09_equal_exact hW ho.1 (constB_holds hW rx.1).1 ho.2 (constB_holds hW rx.1).2
        simp only [hq, Res.ok_bind, Res.pure_def]
        refine ⟨fun h => ⟨x, ?_, rfl, hx.1, ?_⟩, fun h => ?_⟩
        · rw [if_pos (hq'.mpr (by omega))]
        · rw [hx.2]; congr 1; omega
        · rw [if_neg (fun e => h (by have := hq'.mp e; omega))]
      · have sp := assumeInRange_spec hW ho rx.1 rx.2 (by omega) wx.1
        refine ⟨fun h => ?_, fun h => ?_⟩
        · obtain ⟨c, h1, h2, h3⟩ := sp.1 h
          rw [h1]
          simp only [Option.bind_eq_bind, Option.bind_some]
          split
          · rename_i he
            exact ⟨c, rfl, he, h3⟩
          · obtain ⟨d, d1, d2, d3⟩ := convert_holds hW hx.1 h3 (by rw [h2]; simp only; omega)
            exact ⟨d, d1, d2, d3⟩
        · rw [sp.2 h]; rfl

end
end Verif.Bounded
