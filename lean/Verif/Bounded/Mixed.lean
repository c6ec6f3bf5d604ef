import Verif.Bounded.ArithProps
import Verif.Bounded.ModProps
import Verif.Bounded.Shift
import Verif.Bounded.AssignProps
import Verif.Bounded.CheckInRange

/-!
# Operators that mix a bounded integer and a built-in integer
-/

namespace Verif.Bounded

open Verif

/-! ## Model -/

/-- source/bounded/arithmetic/operators_builtin.cpp 19-25: the operators `+ * & / % << >>`
with one built-in operand, `(lhs symbol integer(rhs)).value()`: the built-in operand becomes
a bounded integer of the whole range of its type, and the result is a built-in value of the
underlying type of the result. The overloads for `std::integral_constant` (27-34) replace the
operand by a `constant`, which is the bounded operator, and are not modelled again. -/
def mixed (W : Nat) (op : Nat → BInt → BInt → Option (Res BInt)) (l r : Arg) :
    Option (Res (CTy × Int)) := do
  match ← op W (l.toB W) (r.toB W) with
  | .ok c => some (do return (c.rng.under W, ← c.value))
  | .ub => some .ub
  | .exn => some .exn

/-- Built-in unary `-`: in the promoted type, modular when that is unsigned and undefined on
overflow when it is signed. -/
def builtinNeg (t : CTy) (v : Int) : Res (CTy × Int) := do
  return (t.promote, ← t.promote.arith (-v))

/-- Binary `-` with a bounded left operand and a built-in right operand.
source/bounded/arithmetic/operators_builtin.cpp 38: "binary minus uses the generic operator",
which is imported from the external `operators` module
(source/bounded/arithmetic/increment_decrement.cpp 24) and assumed to be `lhs + -rhs`, so the
negation is the built-in one. -/
def minusBuiltin (W : Nat) (a : BInt) (t : CTy) (v : Int) : Option (Res (CTy × Int)) :=
  match builtinNeg t v with
  | .ok (u, n) => mixed W plus (.bounded a) (.builtin u n)
  | .ub => some .ub
  | .exn => some .exn

/-- Binary `-` with a built-in left operand and a bounded right operand: `lhs + -rhs` with the
bounded negation. -/
def minusFromBuiltin (W : Nat) (t : CTy) (v : Int) (b : BInt) : Option (Res (CTy × Int)) := do
  match ← neg W b with
  | .ok nb => mixed W plus (.builtin t v) (.bounded nb)
  | .ub => some .ub
  | .exn => some .exn

/-- `x op= y` for a built-in variable `x` of type `t` and a bounded `y`: the compound operator
of the `operators` module (source/bounded/arithmetic/increment_decrement.cpp 23) is assumed to
be `x = x op y`, and assigning a built-in value converts it to `t`. -/
def compoundBuiltin (W : Nat) (op : Nat → BInt → BInt → Option (Res BInt)) (t : CTy) (x : Int)
    (y : BInt) : Option (Res Int) := do
  match ← mixed W op (.builtin t x) (.bounded y) with
  | .ok p => some (.ok (t.wrap p.2))
  | .ub => some .ub
  | .exn => some .exn

/-- `x op= y` for a bounded variable `x` and a built-in `y`: `x = x op y`, where the right side
is a built-in value (source/bounded/integer.cpp 192-194, 78-84). -/
def compoundMixed (W : Nat) (op : Nat → BInt → BInt → Option (Res BInt)) (x : BInt) (y : Arg) :
    Option (Res BInt) := do
  match ← mixed W op (.bounded x) y with
  | .ok p => assign W x ((Arg.builtin p.1 p.2).toB W)
  | .ub => some .ub
  | .exn => some .exn

/-- source/bounded/arithmetic/byte.cpp 18-22 `byte << number`, and `std::byte`'s own shift,
which is `byte(static_cast<unsigned int>(b) << n)`; rejected for a count type which may be
negative. -/
def byteShl (byte : Nat) (n : BInt) : Option (Res Nat) :=
  if n.rng.lo < 0 then none
  else some (do
    let k ← n.value
    let q ← (CTy.mk false 32).shl byte k
    return ((CTy.mk false 8).wrap q).toNat)

/-- source/bounded/arithmetic/byte.cpp 24-28 `byte >> number`. -/
def byteShr (byte : Nat) (n : BInt) : Option (Res Nat) :=
  if n.rng.lo < 0 then none
  else some (do
    let k ← n.value
    let q ← (CTy.mk false 32).shr byte k
    return ((CTy.mk false 8).wrap q).toNat)

/-! ## Specification -/

/-- The expression compiled, ran, and produced the number `v` in a built-in type which holds
it. -/
def Gives (W : Nat) (out : Option (Res (CTy × Int))) (v : Int) : Prop :=
  ∃ t, out = some (.ok (t, v)) ∧ Ty W t ∧ t.Fits v

/-! ## Proofs -/

section
variable {W : Nat}

theorem mixed_of_holds (hW : 64 ≤ W) {op : Nat → BInt → BInt → Option (Res BInt)} {l r : Arg} {c : BInt} {v : Int}
    (h : op W (l.toB W) (r.toB W) = some (.ok c)) (hc : Holds W c v) :
    mixed W op l r = some (.ok (c.rng.under W, v)) ∧ Ty W (c.rng.under W) ∧ (c.rng.under W).Fits v := by
  have hle := ((wf_iff hW _).mp hc.1).1
  have := under_spec hW hc.1
  refine ⟨?_, this.1, this.2 v (value_mem hc.2 hle)⟩
  unfold mixed
  rw [h]
  simp only [Option.bind_eq_bind, Option.bind_some, hc.2]
  rfl

theorem mixed_none {op : Nat → BInt → BInt → Option (Res BInt)} {l r : Arg}
    (h : op W (l.toB W) (r.toB W) = none) : mixed W op l r = none := by
  unfold mixed; rw [h]; rfl

/-- C68: adding a bounded and a built-in integer, in either order, gives the exact sum in a
built-in type which holds it: there is no overflow, wrap-around or promotion surprise. -/
theorem C68_add_exact (hW : 64 ≤ W) {l r : Arg} {x y : Int} (hl : ArgHolds W l x)
    (hr : ArgHolds W r y) (hc : mixed W plus l r ≠ none) : Gives W (mixed W plus l r) (x + y) := by
  have tl := (toB_holds hW hl).1
  have tr := (toB_holds hW hr).1
  obtain ⟨c, h1, h2⟩ := plus_holds hW tl tr (fun h => hc (mixed_none h))
  exact ⟨_, mixed_of_holds hW h1 h2⟩

/-- `integer<0, 10>(7) + 2000000000`, and an `unsigned char` plus `constant<-1>`. -/
example : Gives 128 (mixed 128 plus (.bounded ⟨⟨0, 10⟩, 7⟩) (.builtin intTy 2147483647)) 2147483654 :=
  C68_add_exact (by decide) (x := 7) (y := 2147483647) (by unfold ArgHolds Holds; decide +kernel)
    (by unfold ArgHolds Ty; decide +kernel) (by decide +kernel)

/-- C68: with a built-in operand of at most 64 bits an addition is always accepted, unless the
bounded operand comes within `2^64` of the limits of the widest types. -/
theorem C68_add_accepted (hW : 66 ≤ W) {a : BInt} {x : Int} {t : CTy} {v : Int} (ha : Holds W a x)
    (ht : Ty W t) (hb : t.bits ≤ 64) (hv : t.Fits v)
    (h1 : -(2 ^ (W - 1)) + 2 ^ 64 ≤ a.rng.lo) (h2 : a.rng.hi < 2 ^ (W - 1) - 2 ^ 64) :
    Gives W (mixed W plus (.bounded a) (.builtin t v)) (x + v) ∧
    Gives W (mixed W plus (.builtin t v) (.bounded a)) (v + x) := by
  have hW' : 64 ≤ W := by omega
  have hA : ArgHolds W (.bounded a) x := ha
  have hB : ArgHolds W (.builtin t v) v := ⟨ht, hv, rfl⟩
  have tb := toB_holds hW' hB
  have hp : (2 : Int) ^ t.bits ≤ 2 ^ 64 := CTy.two_pow_le hb
  have hp' : (2 : Int) ^ (t.bits - 1) ≤ 2 ^ 64 := CTy.two_pow_le (by omega)
  have p0 := CTy.two_pow_pos (t.bits - 1)
  have p1 := CTy.two_pow_pos t.bits
  have b1 : -(2 ^ 64) ≤ t.lo := by unfold CTy.lo; split <;> omega
  have b2 : t.hi < 2 ^ 64 := by unfold CTy.hi; split <;> omega
  have k : ∀ a' b' : BInt, a'.rng.Wf W → b'.rng.Wf W →
      -(2 ^ (W - 1)) ≤ a'.rng.lo + b'.rng.lo → a'.rng.hi + b'.rng.hi < 2 ^ (W - 1) →
      plus W a' b' ≠ none := by
    intro a' b' w1 w2 l1 l2 hn
    exact (C01_add_rejected_iff hW' w1 w2).mp hn (Or.inr ⟨l1, l2⟩)
  have rl : ((Arg.builtin t v).toB W).rng.lo = t.lo := rfl
  have rh : ((Arg.builtin t v).toB W).rng.hi = t.hi := rfl
  have e1 : plus W a ((Arg.builtin t v).toB W) ≠ none :=
    k _ _ ha.1 tb.1.1 (by rw [rl]; omega) (by rw [rh]; omega)
  have e2 : plus W ((Arg.builtin t v).toB W) a ≠ none :=
    k _ _ tb.1.1 ha.1 (by rw [rl]; omega) (by rw [rh]; omega)
  obtain ⟨c1, f1, g1⟩ := plus_holds hW' ha tb.1 e1
  obtain ⟨c2, f2, g2⟩ := plus_holds hW' tb.1 ha e2
  exact ⟨⟨_, mixed_of_holds hW' (l := .bounded a) (r := .builtin t v) f1 g1⟩,
    ⟨_, mixed_of_holds hW' (l := .builtin t v) (r := .bounded a) f2 g2⟩⟩

example : Gives 128 (mixed 128 plus (.bounded ⟨⟨-5, 10⟩, 7⟩) (.builtin ⟨false, 64⟩ 18446744073709551615))
    18446744073709551622 :=
  (C68_add_accepted (x := 7) (by decide) (by unfold Holds; decide +kernel) (by unfold Ty; decide +kernel)
    (by decide) (by decide +kernel) (by decide +kernel) (by decide +kernel)).1

/-- C68: multiplication, under the condition of C02 on the products of the bounds, which holds
for every built-in operand of at most 32 bits and bounded operand of at most 64. -/
theorem C68_mul_exact_partial (hW : 64 ≤ W) {l r : Arg} {x y : Int} (hl : ArgHolds W l x)
    (hr : ArgHolds W r y) (hc : mixed W mul l r ≠ none)
    (hlo : ∀ p ∈ [l.rng.lo * r.rng.lo, l.rng.lo * r.rng.hi, l.rng.hi * r.rng.lo, l.rng.hi * r.rng.hi],
      -(2 ^ (W - 1)) ≤ p) : Gives W (mixed W mul l r) (x * y) := by
  have tl := toB_holds hW hl
  have tr := toB_holds hW hr
  rw [← tl.2, ← tr.2] at hlo
  obtain ⟨c, h1, h2⟩ := mul_holds hW tl.1 tr.1 hlo (fun h => hc (mixed_none h))
  exact ⟨_, mixed_of_holds hW h1 h2⟩

example : Gives 128 (mixed 128 mul (.builtin intTy (-2147483648)) (.bounded ⟨⟨-1, 9⟩, -1⟩)) 2147483648 :=
  C68_mul_exact_partial (by decide) (x := -2147483648) (y := -1) (by unfold ArgHolds Ty; decide +kernel)
    (by unfold ArgHolds Holds; decide +kernel) (by decide +kernel) (by decide +kernel)

/-- C68: division truncates toward zero, exactly: even the quotient of the least `int` by `-1`
is exact, where the built-in operator is undefined. -/
theorem C68_div_exact (hW : 64 ≤ W) {l r : Arg} {x y : Int} (hl : ArgHolds W l x)
    (hr : ArgHolds W r y) (hc : mixed W div l r ≠ none) (hy : y ≠ 0) :
    Gives W (mixed W div l r) (x.tdiv y) := by
  have tl := toB_holds hW hl
  have tr := toB_holds hW hr
  obtain ⟨c, h1, h2⟩ := (div_holds hW tl.1 tr.1 (fun h => hc (mixed_none h))).1 hy
  exact ⟨_, mixed_of_holds hW h1 h2⟩

example : Gives 128 (mixed 128 div (.builtin intTy (-2147483648)) (.bounded ⟨⟨-1, 9⟩, -1⟩)) 2147483648 :=
  C68_div_exact (by decide) (x := -2147483648) (y := -1) (by unfold ArgHolds Ty; decide +kernel)
    (by unfold ArgHolds Holds; decide +kernel) (by decide +kernel) (by decide +kernel)

/-- C68: dividing by a built-in integer of unsigned type never compiles, because its range
begins at zero. -/
theorem C68_div_unsigned_rejected (l : Arg) {t : CTy} (v : Int) (ht : t.signed = false) :
    mixed W div l (.builtin t v) = none :=
  mixed_none (C04_zero_bound_rejected W _ _ (Or.inl (by
    show t.lo = 0
    unfold CTy.lo
    rw [ht]; rfl)))

example : mixed 128 div (.bounded ⟨⟨0, 9⟩, 5⟩) (.builtin ⟨false, 32⟩ 2) = none :=
  C68_div_unsigned_rejected _ 2 rfl

theorem mod_wf (hW : 64 ≤ W) {a b c : BInt} (h : mod W a b = some (.ok c)) : c.rng.Wf W := by
  unfold mod modTy at h
  cases h1 : modulusRange W a.rng b.rng with
  | none => simp [h1] at h
  | some q =>
    cases h2 : mkInteger W q.1 q.2 with
    | none => simp [h1, h2] at h
    | some r =>
      cases h3 : commonType3 W r a.rng b.rng with
      | none => simp [h1, h2, h3] at h
      | some m =>
        simp only [h1, h2, h3, Option.bind_eq_bind, Option.bind_some, Option.pure_def,
          Option.some.injEq] at h
        cases ha : a.value <;> cases hb : b.value <;> simp [ha, hb, Bind.bind, Res.bind] at h
        rename_i x y
        cases hq : (m.under W).promote.mod ((m.under W).wrap x) ((m.under W).wrap y) <;>
          simp [hq, pure] at h
        subst h
        exact wf_of_mk hW h2

theorem shl_wf (hW : 64 ≤ W) {a b c : BInt} (h : shl W a b = some (.ok c)) : c.rng.Wf W := by
  unfold shl at h
  cases ht : shlTy W a.rng b.rng with
  | none => simp [ht] at h
  | some q =>
    obtain ⟨r, m⟩ := q
    have hr : r.Wf W := by
      unfold shlTy at ht
      simp only [Option.bind_eq_bind, Option.bind_eq_some_iff, Option.pure_def, Option.some.injEq,
        Prod.mk.injEq] at ht
      obtain ⟨l, h0, u, h1, r', h2, m', h3, rfl, rfl⟩ := ht
      exact wf_of_mk hW h2
    simp only [ht, Option.bind_eq_bind, Option.bind_some, Option.pure_def, Option.some.injEq] at h
    cases ha : a.value <;> cases hb : b.value <;> simp [ha, hb] at h
    rename_i x y
    cases hq : m.promote.shl (m.wrap x) (m.wrap y) <;> simp [hq] at h
    subst h
    exact hr

theorem shr_wf (hW : 64 ≤ W) {a b c : BInt} (h : shr W a b = some (.ok c)) : c.rng.Wf W := by
  unfold shr at h
  cases ht : shrTy W a.rng b.rng with
  | none => simp [ht] at h
  | some q =>
    obtain ⟨r, m⟩ := q
    have hr : r.Wf W := by
      unfold shrTy at ht
      simp only [Option.bind_eq_bind, Option.bind_eq_some_iff, Option.pure_def, Option.some.injEq,
        Prod.mk.injEq] at ht
      obtain ⟨l, h0, u, h1, r', h2, m', h3, rfl, rfl⟩ := ht
      exact wf_of_mk hW h2
    simp only [ht, Option.bind_eq_bind, Option.bind_some, Option.pure_def, Option.some.injEq] at h
    cases ha : a.value <;> cases hb : b.value <;> simp [ha, hb] at h
    rename_i x y
    cases hq : m.promote.shr (m.wrap x) (m.wrap y) <;> simp [hq] at h
    subst h
    exact hr

theorem bitAnd_wf (hW : 64 ≤ W) {a b c : BInt} (h : bitAnd W a b = some (.ok c)) : c.rng.Wf W := by
  unfold bitAnd at h
  cases ht : bitAndTy W a.rng b.rng with
  | none => simp [ht] at h
  | some q =>
    obtain ⟨r, m⟩ := q
    have hr : r.Wf W := by
      unfold bitAndTy at ht
      simp only [Option.bind_eq_bind, Option.bind_eq_some_iff, Option.pure_def, Option.some.injEq,
        Prod.mk.injEq] at ht
      obtain ⟨r', h2, m', h3, rfl, rfl⟩ := ht
      exact wf_of_mk hW h2
    simp only [ht, Option.bind_eq_bind, Option.bind_some, Option.pure_def, Option.some.injEq] at h
    cases ha : a.value <;> cases hb : b.value <;> simp [ha, hb] at h
    rename_i x y
    subst h
    exact hr

theorem gives_of_yields (hW : 64 ≤ W) {op : Nat → BInt → BInt → Option (Res BInt)} {l r : Arg}
    {q : Rng} {v : Int} (h : Yields (op W (l.toB W) (r.toB W)) q v)
    (hwf : ∀ c, op W (l.toB W) (r.toB W) = some (.ok c) → c.rng.Wf W) : Gives W (mixed W op l r) v := by
  obtain ⟨c, h1, h2, h3, h4⟩ := h
  exact ⟨_, mixed_of_holds hW h1 ⟨hwf c h1, h3⟩⟩

/-- C68: remainder, with the sign of the dividend, except for the least value of a built-in type
modulo `-1` (C05). -/
theorem C68_mod_exact_partial (hW : 64 ≤ W) {l r : Arg} {x y : Int} (hl : ArgHolds W l x)
    (hr : ArgHolds W r y) (hc : mixed W mod l r ≠ none) (hy : y ≠ 0)
    (hmin : ¬ (MinOfBuiltin W x ∧ y = -1)) : Gives W (mixed W mod l r) (x.tmod y) := by
  have tl := toB_holds hW hl
  have tr := toB_holds hW hr
  obtain ⟨q, h⟩ := C05_mod_exact_partial hW tl.1 tr.1 (fun h => hc (mixed_none h)) hy hmin
  exact gives_of_yields hW h (fun c h => mod_wf hW h)

/-- C68: the missing part is false for a built-in dividend: the least `int` modulo a bounded
`-1` is undefined. -/
theorem C68_mod_violated : mixed 128 mod (.builtin intTy (-2147483648)) (.bounded (constB (-1))) = some .ub := by
  decide +kernel

/-- C68: bitwise and of non-negative operands. -/
theorem C68_and_exact_partial (hW : 64 ≤ W) {l r : Arg} {x y : Int} (hl : ArgHolds W l x)
    (hr : ArgHolds W r y) (hc : mixed W bitAnd l r ≠ none) (hx : 0 ≤ x) (hy : 0 ≤ y) :
    ∃ z, Gives W (mixed W bitAnd l r) z ∧ ∀ k, z.testBit k = (x.testBit k && y.testBit k) := by
  have tl := toB_holds hW hl
  have tr := toB_holds hW hr
  obtain ⟨z, h, hz⟩ := C08_and_exact_partial hW tl.1 tr.1 (fun h => hc (mixed_none h)) hx hy
  exact ⟨z, gives_of_yields hW h (fun c h => bitAnd_wf hW h), hz⟩

/-- The test of source/bounded/arithmetic/operators_builtin.cpp 55, for every value. -/
example : ∃ z, Gives 128 (mixed 128 bitAnd (.bounded ⟨⟨0, 100⟩, 17⟩) (.builtin intTy 1)) z ∧
    ∀ k, z.testBit k = ((17 : Int).testBit k && (1 : Int).testBit k) :=
  C68_and_exact_partial (by decide) (by unfold ArgHolds Holds; decide +kernel)
    (by unfold ArgHolds Ty; decide +kernel) (by decide +kernel) (by decide) (by decide)

/-- C68: shifting by a count of built-in type never compiles: a signed count may be negative
and an unsigned one may exceed the width of the widest type. -/
theorem C68_shift_builtin_rejected (hW' : W < 256) (l : Arg) {t : CTy} (v : Int)
    (hbits : 8 ≤ t.bits) : mixed W shl l (.builtin t v) = none ∧ mixed W shr l (.builtin t v) = none := by
  have p8 : (2 : Int) ^ 8 ≤ 2 ^ t.bits := CTy.two_pow_le hbits
  have p0 := CTy.two_pow_pos (t.bits - 1)
  have key : ¬ (0 ≤ t.lo ∧ t.lo < (W : Int)) ∨ ¬ (0 ≤ t.hi ∧ t.hi < (W : Int)) := by
    cases hs : t.signed
    · right; unfold CTy.hi; rw [hs]; simp only [Bool.false_eq_true, if_false]; omega
    · left; unfold CTy.lo; rw [hs]; simp only [if_true]; omega
  have e : ∀ (op : CTy → Int → Int → Res Int) (x y : Int), ¬ (0 ≤ y ∧ y < (W : Int)) →
      (op = CTy.shl ∨ op = CTy.shr) → constEval (op (smax W) x y) = none := by
    intro op x y h ho
    have h' : ¬ (0 ≤ y ∧ y < ((smax W).bits : Int)) := h
    rcases ho with rfl | rfl
    · unfold CTy.shl; rw [if_neg h']; rfl
    · unfold CTy.shr; rw [if_neg h']; rfl
  have rl : ((Arg.builtin t v).toB W).rng.lo = t.lo := rfl
  have rh : ((Arg.builtin t v).toB W).rng.hi = t.hi := rfl
  constructor
  · apply mixed_none
    unfold shl shlTy
    rw [rl, rh]
    rcases key with k | k
    · rw [e CTy.shl _ _ k (Or.inl rfl)]; rfl
    · rw [e CTy.shl _ t.hi k (Or.inl rfl)]
      cases constEval ((smax W).shl ((smax W).wrap (Arg.toB W l).rng.lo) t.lo) <;> rfl
  · apply mixed_none
    unfold shr shrTy
    rw [rl, rh]
    rcases key with k | k
    · rw [e CTy.shr _ t.lo k (Or.inr rfl)]
      cases constEval ((smax W).shr ((smax W).wrap (Arg.toB W l).rng.lo) t.hi) <;> rfl
    · rw [e CTy.shr _ t.hi k (Or.inr rfl)]; rfl

example : mixed 128 shl (.bounded ⟨⟨0, 9⟩, 5⟩) (.builtin intTy 2) = none :=
  (C68_shift_builtin_rejected (by decide) _ 2 (by decide)).1

/-- C68: a built-in value of unsigned type shifted left by a bounded count. -/
theorem C68_shl_exact_partial (hW : 64 ≤ W) {l r : Arg} {x y : Int} (hl : ArgHolds W l x)
    (hr : ArgHolds W r y) (hc : mixed W shl l r ≠ none) (h0 : 0 ≤ l.rng.lo) (hb0 : 0 ≤ r.rng.lo)
    (hmax : l.rng.hi * 2 ^ r.rng.hi.toNat < 2 ^ (W - 1)) (hz : 1 ≤ l.rng.hi ∨ y < 32) :
    Gives W (mixed W shl l r) (x * 2 ^ y.toNat) := by
  have tl := toB_holds hW hl
  have tr := toB_holds hW hr
  rw [← tl.2] at h0 hmax hz
  rw [← tr.2] at hb0 hmax
  exact gives_of_yields hW
    (C07_shl_exact_partial hW tl.1 tr.1 (fun h => hc (mixed_none h)) h0 hb0 hmax hz)
    (fun c h => shl_wf hW h)

example : Gives 128 (mixed 128 shl (.builtin ⟨false, 32⟩ 4294967295) (.bounded ⟨⟨0, 40⟩, 33⟩))
    (4294967295 * 2 ^ 33) :=
  C68_shl_exact_partial (by decide) (x := 4294967295) (y := 33) (by unfold ArgHolds Ty; decide +kernel)
    (by unfold ArgHolds Holds; decide +kernel) (by decide +kernel) (by decide +kernel) (by decide +kernel)
    (by decide +kernel) (by decide +kernel)

/-- C68: a built-in value of unsigned type shifted right by a bounded count. -/
theorem C68_shr_exact_partial (hW : 64 ≤ W) {l r : Arg} {x y : Int} (hl : ArgHolds W l x)
    (hr : ArgHolds W r y) (hc : mixed W shr l r ≠ none) (h0 : 0 ≤ l.rng.lo) (hb0 : 0 ≤ r.rng.lo)
    (hmax : l.rng.hi < 2 ^ (W - 1)) (hz : 2 ^ y.toNat ≤ l.rng.hi ∨ y < 32) :
    Gives W (mixed W shr l r) (x / 2 ^ y.toNat) := by
  have tl := toB_holds hW hl
  have tr := toB_holds hW hr
  rw [← tl.2] at h0 hmax hz
  rw [← tr.2] at hb0
  exact gives_of_yields hW
    (C07_shr_exact_partial hW tl.1 tr.1 (fun h => hc (mixed_none h)) h0 hb0 hmax hz)
    (fun c h => shr_wf hW h)

example : Gives 128 (mixed 128 shr (.builtin ⟨false, 64⟩ 18446744073709551615) (.bounded ⟨⟨0, 63⟩, 60⟩)) 15 :=
  C68_shr_exact_partial (by decide) (x := 18446744073709551615) (y := 60) (by unfold ArgHolds Ty; decide +kernel)
    (by unfold ArgHolds Holds; decide +kernel) (by decide +kernel) (by decide +kernel) (by decide +kernel)
    (by decide +kernel) (by decide +kernel)

/-! ### Subtraction -/

/-- C68: a built-in minus a bounded integer is the exact difference. -/
theorem C68_sub_from_exact (hW : 64 ≤ W) {t : CTy} {v : Int} {b : BInt} {y : Int} (ht : Ty W t)
    (hv : t.Fits v) (hb : Holds W b y) (hc : minusFromBuiltin W t v b ≠ none) :
    Gives W (minusFromBuiltin W t v b) (v - y) := by
  by_cases hn : neg W b = none
  · exact absurd (by unfold minusFromBuiltin; rw [hn]; rfl) hc
  · obtain ⟨nb, h1, h2⟩ := neg_holds hW hb hn
    have e : minusFromBuiltin W t v b = mixed W plus (.builtin t v) (.bounded nb) := by
      unfold minusFromBuiltin; rw [h1]; rfl
    rw [e] at hc ⊢
    have := C68_add_exact hW (l := .builtin t v) (r := .bounded nb) (x := v) (y := -y) ⟨ht, hv, rfl⟩ h2 hc
    rwa [show v - y = v + -y by omega]

example : Gives 128 (minusFromBuiltin 128 ⟨false, 32⟩ 3 ⟨⟨0, 9⟩, 5⟩) (-2) :=
  C68_sub_from_exact (by decide) (v := 3) (y := 5) (by unfold Ty; decide) (by decide +kernel)
    (by unfold Holds; decide +kernel) (by decide +kernel)

theorem promote_ty {t : CTy} (ht : Ty W t) (hW : 64 ≤ W) : Ty W t.promote := by
  unfold CTy.promote
  split
  · unfold Ty; simp only; omega
  · exact ht

/-- C68: a bounded minus a built-in integer. The negation is the built-in one, so this holds
for a negation that fits the promoted type. -/
theorem C68_sub_exact_partial (hW : 64 ≤ W) {a : BInt} {x : Int} {t : CTy} {v : Int} (ha : Holds W a x)
    (ht : Ty W t) (hf : t.promote.Fits (-v)) (hc : minusBuiltin W a t v ≠ none) :
    Gives W (minusBuiltin W a t v) (x - v) := by
  have e : builtinNeg t v = .ok (t.promote, -v) := by
    unfold builtinNeg CTy.arith
    cases hs : t.promote.signed
    · simp only [Bool.false_eq_true, if_false, Res.ok_bind, Res.pure_def]
      rw [Int.emod_eq_of_lt]
      · have := hf.1; unfold CTy.lo at this; rw [hs] at this; simpa using this
      · have := hf.2; unfold CTy.hi at this; rw [hs] at this; simp at this; omega
    · rw [if_pos rfl, if_pos hf]; rfl
  have e' : minusBuiltin W a t v = mixed W plus (.bounded a) (.builtin t.promote (-v)) := by
    unfold minusBuiltin; rw [e]
  rw [e'] at hc ⊢
  have := C68_add_exact hW (l := .bounded a) (r := .builtin t.promote (-v)) (x := x) (y := -v) ha
    ⟨promote_ty ht hW, hf, rfl⟩ hc
  rwa [show x - v = x + -v by omega]

example : Gives 128 (minusBuiltin 128 ⟨⟨-100, 100⟩, 7⟩ intTy 1) 6 :=
  C68_sub_exact_partial (by decide) (x := 7) (v := 1) (by unfold Holds; decide +kernel) (by unfold Ty; decide)
    (by decide +kernel) (by decide +kernel)

/-- C68: every narrow built-in type (`char`, `short`, signed or not) is covered. -/
theorem C68_sub_narrow (hW : 64 ≤ W) {a : BInt} {x : Int} {t : CTy} {v : Int} (ha : Holds W a x)
    (ht : Ty W t) (hn : t.bits < 32) (hv : t.Fits v) (hc : minusBuiltin W a t v ≠ none) :
    Gives W (minusBuiltin W a t v) (x - v) := by
  refine C68_sub_exact_partial hW ha ht ?_ hc
  have p1 : (2 : Int) ^ t.bits ≤ 2 ^ 31 := CTy.two_pow_le (by omega)
  have p2 : (2 : Int) ^ (t.bits - 1) ≤ 2 ^ 30 := CTy.two_pow_le (by omega)
  have p3 := CTy.two_pow_pos (t.bits - 1)
  have p4 := CTy.two_pow_pos t.bits
  unfold CTy.promote
  rw [if_pos hn]
  unfold CTy.Fits CTy.lo CTy.hi at hv ⊢
  simp only [if_true] at hv ⊢
  rw [show (2 : Int) ^ (32 - 1) = 2147483648 by decide]
  rw [show (2 : Int) ^ 31 = 2147483648 by decide] at p1
  rw [show (2 : Int) ^ 30 = 1073741824 by decide] at p2
  split at hv <;> omega

example : Gives 128 (minusBuiltin 128 ⟨⟨-100, 100⟩, 7⟩ ⟨false, 8⟩ 255) (-248) :=
  C68_sub_narrow (by decide) (x := 7) (v := 255) (by unfold Holds; decide +kernel) (by unfold Ty; decide)
    (by decide) (by decide +kernel) (by decide +kernel)

/-- C68: the missing part is false. Subtracting `1u` from a bounded `5` adds `2^32 - 1`, so the
result is `4294967300`; subtracting the least `int` is undefined. -/
theorem C68_sub_violated :
    minusBuiltin 128 ⟨⟨0, 10⟩, 5⟩ ⟨false, 32⟩ 1 = some (.ok (⟨false, 64⟩, 4294967300)) ∧
    minusBuiltin 128 ⟨⟨0, 10⟩, 5⟩ intTy (-2147483648) = some .ub := by decide +kernel

/-- C68: for an unsigned type at least as wide as `int` the result is always wrong, except when
zero is subtracted: it exceeds the difference by `2^bits`. -/
theorem C68_sub_unsigned_violated (hW : 64 ≤ W) {a : BInt} {x : Int} {t : CTy} {v : Int}
    (ha : Holds W a x) (ht : Ty W t) (hs : t.signed = false) (hb : 32 ≤ t.bits) (hv : t.Fits v)
    (h0 : v ≠ 0) (hc : minusBuiltin W a t v ≠ none) :
    Gives W (minusBuiltin W a t v) (x - v + 2 ^ t.bits) := by
  have ep : t.promote = t := by unfold CTy.promote; rw [if_neg (by omega)]
  have hv1 : 0 ≤ v := by have := hv.1; unfold CTy.lo at this; rw [hs] at this; simpa using this
  have hv2 : v < 2 ^ t.bits := by
    have := hv.2; unfold CTy.hi at this; rw [hs] at this; simp at this; omega
  have hm : (-v) % 2 ^ t.bits = 2 ^ t.bits - v := by
    rw [← Int.add_emod_right (a := -v), Int.emod_eq_of_lt (by omega) (by omega)]; omega
  have e : builtinNeg t v = .ok (t, 2 ^ t.bits - v) := by
    unfold builtinNeg CTy.arith
    rw [ep, hs, ← hm]; rfl
  have e' : minusBuiltin W a t v = mixed W plus (.bounded a) (.builtin t (2 ^ t.bits - v)) := by
    unfold minusBuiltin; rw [e]
  rw [e'] at hc ⊢
  have hf : t.Fits (2 ^ t.bits - v) := by
    unfold CTy.Fits CTy.lo CTy.hi; rw [hs]; simp; omega
  have := C68_add_exact hW (l := .bounded a) (r := .builtin t (2 ^ t.bits - v)) (x := x)
    (y := 2 ^ t.bits - v) ha ⟨ht, hf, rfl⟩ hc
  rwa [show x - v + 2 ^ t.bits = x + (2 ^ t.bits - v) by omega]

example : Gives 128 (minusBuiltin 128 ⟨⟨0, 10⟩, 5⟩ ⟨false, 32⟩ 2) (5 - 2 + 2 ^ 32) :=
  C68_sub_unsigned_violated (by decide) (by unfold Holds; decide +kernel) (by unfold Ty; decide) rfl
    (by decide) (by decide +kernel) (by decide) (by decide +kernel)

/-! ### Compound assignment -/

/-- C68: `x op= y` for a built-in variable stores the value of `x op y` converted to the type of
`x`: exactly when it fits, and modulo `2^bits`, silently, when it does not. -/
theorem C68_compound_builtin_partial (hW : 64 ≤ W) {op : Nat → BInt → BInt → Option (Res BInt)}
    {t : CTy} {x : Int} {y : BInt} {z : Int} (ht : Ty W t)
    (h : Gives W (mixed W op (.builtin t x) (.bounded y)) z) :
    ∃ s, compoundBuiltin W op t x y = some (.ok s) ∧ t.Fits s ∧ s % 2 ^ t.bits = z % 2 ^ t.bits ∧
      (t.Fits z → s = z) := by
  obtain ⟨u, h1, h2, h3⟩ := h
  have hb : 1 ≤ t.bits := by unfold Ty at ht; omega
  refine ⟨t.wrap z, ?_, CTy.wrap_fits hb z, CTy.wrap_emod t z, CTy.wrap_of_fits hb⟩
  unfold compoundBuiltin
  rw [h1]; rfl

/-- `unsigned u = 9; u += constant<3>` (source/bounded/arithmetic/operators_builtin.cpp 109). -/
example : compoundBuiltin 128 plus ⟨false, 32⟩ 9 (constB 3) = some (.ok 12) := by
  obtain ⟨s, h1, h2, h3, h4⟩ := C68_compound_builtin_partial (W := 128) (by decide) (z := 12)
    (by unfold Ty; decide) (C68_add_exact (by decide) (l := .builtin ⟨false, 32⟩ 9) (r := .bounded (constB 3))
      (x := 9) (y := 3) (by unfold ArgHolds Ty; decide +kernel) (by unfold ArgHolds Holds; decide +kernel)
      (by decide +kernel))
  rw [h1, h4 (by decide +kernel)]

/-- C68: the missing part is false: `int i = 2147483647; i += 1_bi` stores the least `int`, although
the sum was computed exactly. -/
theorem C68_compound_builtin_violated :
    mixed 128 plus (.builtin intTy 2147483647) (.bounded (constB 1)) = some (.ok (⟨true, 64⟩, 2147483648)) ∧
    compoundBuiltin 128 plus intTy 2147483647 (constB 1) = some (.ok (-2147483648)) := by decide +kernel

/-- C68: `x op= y` for a bounded variable and a built-in `y` stores exactly `x op y` when that is
in the range of the variable, and is undefined when it is not. -/
theorem C68_compound_mixed (hW : 64 ≤ W) {op : Nat → BInt → BInt → Option (Res BInt)} {x : BInt}
    {y : Arg} {v z : Int} (hx : Holds W x v) (h : Gives W (mixed W op (.bounded x) y) z)
    (hc : compoundMixed W op x y ≠ none) :
    (x.rng.lo ≤ z ∧ z ≤ x.rng.hi → Yields (compoundMixed W op x y) x.rng z) ∧
    (¬ (x.rng.lo ≤ z ∧ z ≤ x.rng.hi) → compoundMixed W op x y = some .ub) := by
  obtain ⟨u, h1, h2, h3⟩ := h
  have e : compoundMixed W op x y = assign W x ((Arg.builtin u z).toB W) := by
    unfold compoundMixed; rw [h1]; rfl
  rw [e] at hc ⊢
  exact C12_assign_exact hW hx (toB_holds hW (a := .builtin u z) ⟨h2, h3, rfl⟩).1 hc

/-- `integer<-100, 100> x = -5; x += 5`. -/
example : Yields (compoundMixed 128 plus ⟨⟨-100, 100⟩, -5⟩ (.builtin intTy 5)) ⟨-100, 100⟩ 0 :=
  (C68_compound_mixed (W := 128) (by decide) (v := -5) (z := 0) (by unfold Holds; decide +kernel)
    (C68_add_exact (by decide) (l := .bounded ⟨⟨-100, 100⟩, -5⟩) (r := .builtin intTy 5) (x := -5) (y := 5)
      (by unfold ArgHolds Holds; decide +kernel) (by unfold ArgHolds Ty; decide +kernel) (by decide +kernel))
    (by decide +kernel)).1 (by decide)

/-! ### Bytes -/

/-- C68: shifting a byte by a bounded count keeps the low eight bits of the shifted number when
the count is below 32, and is undefined from there on, although every such count could be given
the meaning "all bits shifted out". -/
theorem C68_byte_shift_partial (hW : 64 ≤ W) {b : Nat} (hb : b < 256) {n : BInt} {k : Int} (hn : Holds W n k)
    (h0 : 0 ≤ n.rng.lo) :
    (k < 32 → byteShl b n = some (.ok (b * 2 ^ k.toNat % 256)) ∧
      byteShr b n = some (.ok (b / 2 ^ k.toNat))) ∧
    (32 ≤ k → byteShl b n = some .ub ∧ byteShr b n = some .ub) := by
  have mk := value_mem hn.2 ((wf_iff hW _).mp hn.1).1
  have hk : 0 ≤ k := by unfold Rng.Mem at mk; omega
  constructor
  · intro h
    have hc : 0 ≤ k ∧ k < 32 := ⟨hk, h⟩
    constructor
    · unfold byteShl CTy.shl CTy.wrap
      rw [if_neg (by omega), hn.2]
      simp only [Res.ok_bind, Nat.cast_ofNat, hc, and_self, if_true, Bool.false_eq_true, if_false, Res.pure_def]
      congr 2
      rw [CTy.emod_two_pow_of_le (by decide : 8 ≤ 32)]
      have : ((b * 2 ^ k.toNat % 256 : Nat) : Int) = (b : Int) * 2 ^ k.toNat % 2 ^ 8 := by
        push_cast; rfl
      omega
    · unfold byteShr CTy.shr CTy.wrap
      rw [if_neg (by omega), hn.2]
      simp only [Res.ok_bind, Nat.cast_ofNat, hc, and_self, if_true, Bool.false_eq_true, if_false, Res.pure_def]
      congr 2
      have e : ((b / 2 ^ k.toNat : Nat) : Int) = (b : Int) / 2 ^ k.toNat := by push_cast; rfl
      have l : b / 2 ^ k.toNat ≤ b := Nat.div_le_self _ _
      have l2 : ((b / 2 ^ k.toNat : Nat) : Int) < 2 ^ 8 := by
        rw [show (2 : Int) ^ 8 = 256 by decide]; omega
      rw [← e, Int.emod_eq_of_lt (Int.natCast_nonneg _) l2]
      rfl
  · intro h
    unfold byteShl byteShr CTy.shl CTy.shr
    rw [if_neg (by omega), if_neg (by omega), hn.2]
    simp [show ¬ k < 32 by omega]

/-- C68: the shifts of a byte compile exactly for count types without negative values. -/
theorem C68_byte_shift_accepted (b : Nat) (n : BInt) :
    ((byteShl b n).isSome ↔ 0 ≤ n.rng.lo) ∧ ((byteShr b n).isSome ↔ 0 ≤ n.rng.lo) := by
  unfold byteShl byteShr
  by_cases h : n.rng.lo < 0
  · simp [h]
  · simp [h]; omega

example : ¬ (byteShl 1 ⟨⟨-1, 3⟩, 1⟩).isSome := by rw [(C68_byte_shift_accepted _ _).1]; decide

example : byteShl 0b01001001 (constB 3) = some (.ok 0b01001000) :=
  ((C68_byte_shift_partial (W := 128) (by decide) (by decide) (n := constB 3) (k := 3) (by unfold Holds; decide +kernel)
    (by decide)).1 (by decide)).1

end
end Verif.Bounded
