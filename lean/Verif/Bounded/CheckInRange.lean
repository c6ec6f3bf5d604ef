import Verif.Bounded.AssignProps

/-!
# `check_in_range` and mixed comparisons with built-in integers (property C13)
-/

namespace Verif.Bounded

open Verif

/-- The usual arithmetic conversions [expr.arith.conv] on two built-in integer types:
both operands are promoted; with equal signedness the wider type wins; otherwise the
unsigned type wins unless the signed one is strictly wider. -/
def usualConv (L R : CTy) : CTy :=
  let l := L.promote
  let r := R.promote
  if l.signed = r.signed then (if l.bits < r.bits then r else l)
  else if l.signed then (if r.bits < l.bits then l else r)
  else (if l.bits < r.bits then r else l)

/-- A function argument that satisfies `integral` (source/bounded/integral.cpp 13-17):
a bounded integer or an object of built-in integer type `t`. `std::integral_constant`
arguments behave like the built-in case and are not modelled separately. -/
inductive Arg where
  | bounded (b : BInt)
  | builtin (t : CTy) (v : Int)
  deriving Repr, DecidableEq

/-- `builtin_min_value<T>`, `builtin_max_value<T>` of the argument's type. -/
def Arg.rng : Arg → Rng
  | .bounded b => b.rng
  | .builtin t _ => ⟨t.lo, t.hi⟩

/-- Reading the argument's value. -/
def Arg.read : Arg → Res Int
  | .bounded b => b.value
  | .builtin _ v => .ok v

/-- `integer(value)` (source/bounded/integer.cpp 223-224 deduction guide, 182-186). -/
def Arg.toB (W : Nat) : Arg → BInt
  | .bounded b => b
  | .builtin t v => (Rng.mk t.lo t.hi).unchecked W v

/-- `lhs <=> rhs`: built-in for two built-in operands, source/bounded/comparison.cpp
17-30 for two bounded ones, source/bounded/comparison_builtin.cpp 17-19 (and its
reversed candidate) for mixed ones. -/
def Arg.cmp (W : Nat) (l r : Arg) : Res Ordering :=
  match l, r with
  | .builtin L x, .builtin R y =>
    .ok (compare ((usualConv L R).wrap x) ((usualConv L R).wrap y))
  | .bounded a, r => compareB W a (r.toB W)
  | .builtin L x, .bounded b => do return (← compareB W b ((Arg.builtin L x).toB W)).swap

/-- source/bounded/integer.cpp 78-84 `assume_in_range_impl` for any arguments. -/
def assumeImplArg (W : Nat) (v lo hi : Arg) : Option (Res BInt) := do
  let r ← mkInteger W (safeMax W lo.rng.lo v.rng.lo) (safeMin W hi.rng.hi v.rng.hi)
  if v.rng.overlaps W r then some (do return r.unchecked W (← v.read)) else none

/-- source/bounded/check_in_range.cpp 47-54 `check_in_range(value, minimum, maximum)`.
The text of the exception is not modelled. -/
def checkInRange (W : Nat) (v lo hi : Arg) : Option (Res BInt) := do
  match ← assumeImplArg W v lo hi with
  | .ok c => some (do
      if (← lo.cmp W v).isLE then
        if (← v.cmp W hi).isLE then return c else .exn
      else .exn)
  | .ub => some .ub
  | .exn => some .exn

/-- source/bounded/check_in_range.cpp 56-63 `check_in_range<Target>(value)` for a
bounded target: `numeric_traits::min_value<Target>` is a `constant`
(source/bounded/integer.cpp 39-43). -/
def checkInRangeTarget (W : Nat) (r : Rng) (v : Arg) : Option (Res BInt) := do
  match ← checkInRange W v (.bounded (constB r.lo)) (.bounded (constB r.hi)) with
  | .ok c => if c.rng = r then some (.ok c) else convert W r c
  | .ub => some .ub
  | .exn => some .exn

/-- source/bounded/check_in_range.cpp 56-63 for a built-in target: the bounds are
values of the target type and the result is converted by `static_cast`
(source/bounded/integer.cpp 152-155, 198-201). -/
def checkInRangeBuiltin (W : Nat) (t : CTy) (v : Arg) : Option (Res Int) := do
  match ← checkInRange W v (.builtin t t.lo) (.builtin t t.hi) with
  | .ok c => some (do return t.wrap (← c.value))
  | .ub => some .ub
  | .exn => some .exn

/-! ## Specification -/

/-- The argument is well formed and holds the value `x`. -/
def ArgHolds (W : Nat) (a : Arg) (x : Int) : Prop :=
  match a with
  | .bounded b => Holds W b x
  | .builtin t v => Ty W t ∧ t.Fits v ∧ v = x

/-- At most one of the two is built-in, or both have the same signedness. -/
def SameKind (a b : Arg) : Prop :=
  match a, b with
  | .builtin L _, .builtin R _ => L.signed = R.signed
  | _, _ => True

variable {W : Nat}

theorem rng_wf_of_ty (hW : 64 ≤ W) {t : CTy} (ht : Ty W t) : (Rng.mk t.lo t.hi).Wf W := by
  rw [wf_iff hW]
  have ⟨p1, p2⟩ := pow_facts hW
  have b := ty_bounds hW ht
  unfold Storable
  simp only
  cases hs : t.signed
  · have := b.2.2.2.1 hs; omega
  · have := b.2.2.1 hs; omega

theorem toB_holds (hW : 64 ≤ W) {a : Arg} {x : Int} (h : ArgHolds W a x) :
    Holds W (a.toB W) x ∧ (a.toB W).rng = a.rng := by
  cases a with
  | bounded b => exact ⟨h, rfl⟩
  | builtin t v =>
    obtain ⟨h1, h2, rfl⟩ := h
    exact holds_of_mem hW (rng_wf_of_ty hW h1) h2

theorem read_eq {a : Arg} {x : Int} (h : ArgHolds W a x) : a.read = .ok x := by
  cases a with
  | bounded b => exact h.2
  | builtin t v => obtain ⟨h1, h2, rfl⟩ := h; rfl

theorem promote_signed_of {t : CTy} : t.promote.signed = true ∨ (t.signed = false ∧ t.promote = t) := by
  unfold CTy.promote
  split
  · exact Or.inl rfl
  · cases h : t.signed <;> simp

/-- The usual arithmetic conversions preserve both values when the signedness agrees. -/
theorem usualConv_fits {L R : CTy} (hl : 1 ≤ L.bits) (hr : 1 ≤ R.bits) (hs : L.signed = R.signed)
    {x y : Int} (hx : L.Fits x) (hy : R.Fits y) :
    1 ≤ (usualConv L R).bits ∧ (usualConv L R).Fits x ∧ (usualConv L R).Fits y := by
  have px := promote_fits hl hx
  have py := promote_fits hr hy
  have bl : 1 ≤ L.promote.bits := by unfold CTy.promote; split <;> first | decide | assumption
  have br : 1 ≤ R.promote.bits := by unfold CTy.promote; split <;> first | decide | assumption
  -- promoted types: both signed, or a mix arising only when promotion made one signed
  have mono : ∀ (s t : CTy) (v : Int), s.signed = t.signed → s.bits ≤ t.bits → s.Fits v → t.Fits v := by
    intro s t v h1 h2 h3
    have e1 := CTy.two_pow_le h2
    have e2 := CTy.two_pow_le (show s.bits - 1 ≤ t.bits - 1 by omega)
    unfold CTy.Fits CTy.lo CTy.hi at *
    rw [← h1]
    cases hsg : s.signed <;> simp [hsg] at * <;> omega
  -- a signed `int` holding a small unsigned value fits a wide unsigned type
  have mixed : ∀ (s t : CTy) (v : Int), s.signed = false → s.bits < 32 → t.signed = false →
      32 ≤ t.bits → s.Fits v → t.Fits v := by
    intro s t v h1 h2 h3 h4 h5
    exact mono s t v (by rw [h1, h3]) (by omega) h5
  unfold usualConv
  simp only
  by_cases hse : L.promote.signed = R.promote.signed
  · rw [if_pos hse]
    split
    · rename_i hlt
      exact ⟨br, mono _ _ _ hse (by omega) px, py⟩
    · rename_i hlt
      exact ⟨bl, px, mono _ _ _ hse.symm (by omega) py⟩
  · rw [if_neg hse]
    cases hL : L.signed
    · have hR : R.signed = false := by rw [← hs, hL]
      by_cases h1 : L.bits < 32
      · have eL : L.promote = ⟨true, 32⟩ := by unfold CTy.promote; rw [if_pos h1]
        have h2 : ¬ R.bits < 32 := by
          intro h2
          apply hse
          unfold CTy.promote
          rw [if_pos h1, if_pos h2]
        have eR : R.promote = R := by unfold CTy.promote; rw [if_neg h2]
        rw [eL, eR]
        simp only [if_true]
        rw [if_neg h2]
        exact ⟨hr, mixed L R x hL h1 hR (by omega) hx, hy⟩
      · have eL : L.promote = L := by unfold CTy.promote; rw [if_neg h1]
        have h2 : R.bits < 32 := by
          by_contra h2
          apply hse
          unfold CTy.promote
          rw [if_neg h1, if_neg h2]; exact hs
        have eR : R.promote = ⟨true, 32⟩ := by unfold CTy.promote; rw [if_pos h2]
        rw [eL, eR, hL]
        simp only [Bool.false_eq_true, if_false]
        rw [if_neg h1]
        exact ⟨hl, hx, mixed R L y hR h2 hL (by omega) hy⟩
    · exfalso
      apply hse
      have hR : R.signed = true := by rw [← hs, hL]
      have a : L.promote.signed = true := by unfold CTy.promote; split <;> simp [hL]
      have b : R.promote.signed = true := by unfold CTy.promote; split <;> simp [hR]
      rw [a, b]

theorem cmp_eq (hW : 64 ≤ W) {l r : Arg} {x y : Int} (hl : ArgHolds W l x) (hr : ArgHolds W r y)
    (hk : SameKind l r) : ∃ o, l.cmp W r = .ok o ∧ (o.isLE ↔ x ≤ y) := by
  have key : ∀ (o : Ordering) (x y : Int), (o = .lt ↔ x < y) → (o = .gt ↔ x > y) → (o.isLE ↔ x ≤ y) := by
    intro o x y h1 h2
    cases o <;> simp at * <;> omega
  cases l with
  | bounded a =>
    have ht := toB_holds hW hr
    obtain ⟨o, h0, h1, h2, h3⟩ := C09_compare_exact hW hl.1 ht.1.1 hl.2 ht.1.2
    exact ⟨o, h0, key o x y h1 h3⟩
  | builtin L v =>
    have ht := toB_holds hW hl
    cases r with
    | bounded b =>
      obtain ⟨o, h0, h1, h2, h3⟩ := C09_compare_exact hW hr.1 ht.1.1 hr.2 ht.1.2
      refine ⟨o.swap, by simp only [Arg.cmp, h0]; rfl, ?_⟩
      cases o <;> simp [Ordering.swap] at * <;> omega
    | builtin R w =>
      obtain ⟨a1, a2, rfl⟩ := hl
      obtain ⟨b1, b2, rfl⟩ := hr
      obtain ⟨c1, c2, c3⟩ := usualConv_fits a1.1 b1.1 hk a2 b2
      refine ⟨_, rfl, ?_⟩
      rw [CTy.wrap_of_fits c1 c2, CTy.wrap_of_fits c1 c3, isLE_compare]
      simp

/-- What the function does when the comparisons are exact. -/
theorem checkInRange_spec (hW : 64 ≤ W) {v lo hi : Arg} {x l h : Int} (hv : ArgHolds W v x)
    (hlo : ArgHolds W lo l) (hhi : ArgHolds W hi h) (hc : checkInRange W v lo hi ≠ none)
    (k1 : SameKind lo v) (k2 : SameKind v hi) :
    (l ≤ x ∧ x ≤ h → ∃ c, checkInRange W v lo hi = some (.ok c) ∧
      c.rng = ⟨max lo.rng.lo v.rng.lo, min hi.rng.hi v.rng.hi⟩ ∧ Holds W c x) ∧
    (¬ (l ≤ x ∧ x ≤ h) → checkInRange W v lo hi = some .exn) := by
  have tv := toB_holds hW hv
  have tl := toB_holds hW hlo
  have th := toB_holds hW hhi
  have wv := (wf_iff hW _).mp tv.1.1
  have wl := (wf_iff hW _).mp tl.1.1
  have wh := (wf_iff hW _).mp th.1.1
  have mv := value_mem tv.1.2 wv.1
  have ml := value_mem tl.1.2 wl.1
  have mh := value_mem th.1.2 wh.1
  have rv := tv.1.1.rep hW
  have rl := tl.1.1.rep hW
  have rh := th.1.1.rep hW
  have wfv := tv.1.1
  rw [tv.2] at mv wv rv wfv
  rw [tl.2] at ml wl rl
  rw [th.2] at mh wh rh
  unfold Rng.Mem at mv ml mh
  obtain ⟨o1, e1, f1⟩ := cmp_eq hW hlo hv k1
  obtain ⟨o2, e2, f2⟩ := cmp_eq hW hv hhi k2
  unfold checkInRange assumeImplArg at hc ⊢
  rw [safeMax_eq hW rl.1 rv.1, safeMin_eq hW rh.2 rv.2, read_eq hv] at hc ⊢
  cases hmk : mkInteger W (max lo.rng.lo v.rng.lo) (min hi.rng.hi v.rng.hi) with
  | none => rw [hmk] at hc; exact absurd rfl hc
  | some r =>
    have hr := mkInteger_some hW hmk
    have hwf : r.Wf W := by
      have := wf_of_mk hW hmk; exact this
    have hrr : r = ⟨max lo.rng.lo v.rng.lo, min hi.rng.hi v.rng.hi⟩ := hr.1
    have hrl := ((wf_iff hW _).mp hwf).1
    rw [hmk] at hc
    simp only [Option.bind_eq_bind, Option.bind_some] at hc ⊢
    rw [overlaps_eq hW wfv hwf] at hc ⊢
    rw [if_pos (by rw [hrr] at hrl ⊢; simp at hrl ⊢; omega)] at hc ⊢
    simp only [Res.ok_bind, Res.pure_def, Option.bind_some, e1, e2] at hc ⊢
    refine ⟨fun hin => ?_, fun hout => ?_⟩
    · rw [if_pos (f1.mpr hin.1), if_pos (f2.mpr hin.2)]
      refine ⟨_, rfl, hrr, hwf, unchecked_value hW hwf ?_ rfl⟩
      rw [hrr]; unfold Rng.Mem; simp only; omega
    · by_cases h1 : l ≤ x
      · rw [if_pos (f1.mpr h1), if_neg (fun h => hout ⟨h1, f2.mp h⟩)]
      · rw [if_neg (fun h => h1 (f1.mp h))]

/-- C13: `check_in_range(value, lo, hi)`, whenever it compiles, returns the same value
typed to the intersection of the ranges exactly when `lo <= value <= hi`, and throws
otherwise.

Partial: for comparisons between two built-in arguments of different signedness the
statement fails, see `C13_check_in_range_violated`. -/
theorem C13_check_in_range_partial (hW : 64 ≤ W) {v lo hi : Arg} {x l h : Int} (hv : ArgHolds W v x)
    (hlo : ArgHolds W lo l) (hhi : ArgHolds W hi h) (hc : checkInRange W v lo hi ≠ none)
    (k1 : SameKind lo v) (k2 : SameKind v hi) :
    (l ≤ x ∧ x ≤ h → Yields (checkInRange W v lo hi)
      ⟨max lo.rng.lo v.rng.lo, min hi.rng.hi v.rng.hi⟩ x) ∧
    (¬ (l ≤ x ∧ x ≤ h) → checkInRange W v lo hi = some .exn) := by
  have sp := checkInRange_spec hW hv hlo hhi hc k1 k2
  refine ⟨fun hin => ?_, sp.2⟩
  obtain ⟨c, c1, c2, c3⟩ := sp.1 hin
  rw [← c2]
  exact yields_of hW ⟨c, c1, rfl, c3.2⟩ c3.1

/-- C13: `check_in_range<integer<lo, hi>>(value)`, for any argument, returns a value of
the target type equal to the argument exactly when the argument is in range, and throws
otherwise. -/
theorem C13_check_in_range_target (hW : 64 ≤ W) {r : Rng} (hr : r.Wf W) {v : Arg} {x : Int}
    (hv : ArgHolds W v x) (hc : checkInRangeTarget W r v ≠ none) :
    (r.lo ≤ x ∧ x ≤ r.hi → Yields (checkInRangeTarget W r v) r x) ∧
    (¬ (r.lo ≤ x ∧ x ≤ r.hi) → checkInRangeTarget W r v = some .exn) := by
  have rr := hr.rep hW
  have h0 : checkInRange W v (.bounded (constB r.lo)) (.bounded (constB r.hi)) ≠ none :=
    fun h => hc (by unfold checkInRangeTarget; rw [h]; rfl)
  have k2 : SameKind v (.bounded (constB r.hi)) := by cases v <;> exact trivial
  have sp := checkInRange_spec hW hv (lo := .bounded (constB r.lo)) (hi := .bounded (constB r.hi))
    (constB_holds hW rr.1) (constB_holds hW rr.2) h0 trivial k2
  unfold checkInRangeTarget
  refine ⟨fun hin => ?_, fun hout => ?_⟩
  · obtain ⟨c, c1, c2, c3⟩ := sp.1 hin
    rw [c1]
    simp only [Option.bind_eq_bind, Option.bind_some]
    split
    · rename_i he
      exact yields_of hW ⟨c, rfl, he, c3.2⟩ hr
    · obtain ⟨d, d1, d2, d3⟩ := convert_holds hW hr c3 (by
        rw [c2]; simp only [Arg.rng, constB]; omega)
      exact yields_of hW ⟨d, d1, d2, d3.2⟩ hr
  · rw [sp.2 hout]; rfl

/-- C13: `check_in_range<T>(value)` for a built-in `T` returns the same value exactly
when it is representable in `T`, and throws otherwise. Partial for the same reason. -/
theorem C13_check_in_range_builtin_partial (hW : 64 ≤ W) {t : CTy} (ht : Ty W t) {v : Arg} {x : Int}
    (hv : ArgHolds W v x) (hc : checkInRangeBuiltin W t v ≠ none)
    (hk : ∀ s y, v = .builtin s y → s.signed = t.signed) :
    (t.Fits x → checkInRangeBuiltin W t v = some (.ok x)) ∧
    (¬ t.Fits x → checkInRangeBuiltin W t v = some .exn) := by
  have b := ty_bounds hW ht
  have h0 : checkInRange W v (.builtin t t.lo) (.builtin t t.hi) ≠ none :=
    fun h => hc (by unfold checkInRangeBuiltin; rw [h]; rfl)
  have k1 : SameKind (.builtin t t.lo) v := by
    cases v with
    | bounded _ => exact trivial
    | builtin s y => exact (hk s y rfl).symm
  have k2 : SameKind v (.builtin t t.hi) := by
    cases v with
    | bounded _ => exact trivial
    | builtin s y => exact hk s y rfl
  have sp := checkInRange_spec hW hv (lo := .builtin t t.lo) (hi := .builtin t t.hi)
    ⟨ht, ⟨by omega, by omega⟩, rfl⟩ ⟨ht, ⟨by omega, by omega⟩, rfl⟩ h0 k1 k2
  unfold checkInRangeBuiltin
  refine ⟨fun hin => ?_, fun hout => ?_⟩
  · obtain ⟨c, c1, c2, c3⟩ := sp.1 hin
    rw [c1]
    simp only [Option.bind_eq_bind, Option.bind_some, c3.2, Res.ok_bind, Res.pure_def]
    rw [CTy.wrap_of_fits ht.1 hin]
  · rw [sp.2 hout]; rfl

/-- C13 is false for two built-in arguments of different signedness:
`check_in_range(-1, 0u, 4294967295u)` accepts `-1`, and `check_in_range<unsigned>(-1)`
produces an object whose value cannot be read without undefined behaviour. -/
theorem C13_check_in_range_violated :
    (∃ v lo hi c, ArgHolds 128 v (-1) ∧ ArgHolds 128 lo 0 ∧ ArgHolds 128 hi 4294967295 ∧
      checkInRange 128 v lo hi = some (.ok c) ∧ c.value = .ub) ∧
    checkInRangeBuiltin 128 ⟨false, 32⟩ (.builtin ⟨true, 32⟩ (-1)) = some .ub := by
  refine ⟨⟨.builtin ⟨true, 32⟩ (-1), .builtin ⟨false, 32⟩ 0, .builtin ⟨false, 32⟩ 4294967295,
    ⟨⟨0, 2147483647⟩, 4294967295⟩, ?_⟩, ?_⟩
  · unfold ArgHolds; simp only; decide +kernel
  · decide +kernel

/-- In range, with a mix of bounded and built-in arguments. -/
example : checkInRange 128 (.builtin ⟨true, 32⟩ 5) (.bounded (constB 0)) (.bounded ⟨⟨3, 10⟩, 7⟩) =
    some (.ok ⟨⟨0, 10⟩, 5⟩) ∧ SameKind (.bounded (constB 0)) (.builtin ⟨true, 32⟩ 5) ∧
    ArgHolds 128 (.builtin ⟨true, 32⟩ 5) 5 := by
  unfold SameKind ArgHolds; simp only; decide +kernel
/-- Out of range because of the run-time bound. -/
example : checkInRange 128 (.builtin ⟨true, 32⟩ 8) (.bounded (constB 0)) (.bounded ⟨⟨3, 10⟩, 7⟩) =
    some .exn := by decide +kernel
example : checkInRangeTarget 128 ⟨0, 10⟩ (.builtin ⟨true, 64⟩ (-1)) = some .exn := by decide +kernel
example : checkInRangeTarget 128 ⟨0, 10⟩ (.builtin ⟨true, 64⟩ 9) = some (.ok ⟨⟨0, 10⟩, 9⟩) := by decide +kernel

end Verif.Bounded
