import Verif.Bounded.Tombstone
import Mathlib.Algebra.Order.Ring.Int
import Mathlib.Data.List.Forall2
import Mathlib.Algebra.BigOperators.Group.List.Basic

/-!
# `accumulate`, `sum` and `product` over bounded integers (property C52)
-/

namespace Verif.Bounded

open Verif

/-- source/bounded/integer.cpp 95-107 `assume_in_range<Target>(value)`, whose result has a
range inside that of `Target`, followed by the conversion to `Target` (182-186; the
assignment on line 191 does the same for such an argument). -/
def assumeTarget (W : Nat) (r : Rng) (v : BInt) : Option (Res BInt) := do
  match ← assumeInRange W v r.lo r.hi with
  | .ok c => if c.rng = r then some (.ok c) else convert W r c
  | .ub => some .ub
  | .exn => some .exn

/-- source/containers/algorithms/accumulate.cpp 66-73: the loop of `accumulate`.
Simplification: for an empty range the loop body is not required to compile. -/
def accumulateLoop (W : Nat) (op : BInt → BInt → Option (Res BInt)) (r : Rng) (result : BInt) :
    List BInt → Option (Res BInt)
  | [] => some (.ok result)
  | v :: vs =>
    thenB (thenB (op result v) fun c => assumeTarget W r c) fun next => accumulateLoop W op r next vs

/-- source/containers/algorithms/accumulate.cpp 63-75 `accumulate<Result>(source, initial, op)`. -/
def accumulate (W : Nat) (op : BInt → BInt → Option (Res BInt)) (r : Rng) (initial : BInt)
    (vs : List BInt) : Option (Res BInt) :=
  thenB (convert W r initial) fun result => accumulateLoop W op r result vs

/-- source/containers/algorithms/accumulate.cpp 31-43: the deduced result type of `+`; `v`
is the type of the values and `n` the largest value of the range's `difference_type`. -/
def sumTy (W : Nat) (initial v : Rng) (n : Int) : Option Rng := do
  let len ← mkInteger W 0 n
  plusTy W initial (← mulTy W v len)

/-- source/containers/algorithms/accumulate.cpp 45-57: the deduced result type of `*`. -/
def productTy (W : Nat) (initial v : Rng) (n : Int) : Option Rng := do
  let len ← mkInteger W 0 n
  match ← pow W (v.unchecked W v.lo) (len.unchecked W 0) with
  | .ok p => mulTy W initial p.rng
  | _ => none

/-- source/containers/algorithms/accumulate.cpp 105-112 `sum<Result>(source)`. -/
def sumTo (W : Nat) (r : Rng) (vs : List BInt) : Option (Res BInt) :=
  accumulate W (plus W) r (constB 0) vs

/-- source/containers/algorithms/accumulate.cpp 114-120 `sum(source)`. -/
def sum (W : Nat) (v : Rng) (n : Int) (vs : List BInt) : Option (Res BInt) := do
  sumTo W (← sumTy W ⟨0, 0⟩ v n) vs

/-- source/containers/algorithms/accumulate.cpp 122-129 `product<Result>(source)`. -/
def productTo (W : Nat) (r : Rng) (vs : List BInt) : Option (Res BInt) :=
  accumulate W (mul W) r (constB 1) vs

/-- source/containers/algorithms/accumulate.cpp 131-137 `product(source)`. -/
def product (W : Nat) (v : Rng) (n : Int) (vs : List BInt) : Option (Res BInt) := do
  productTo W (← productTy W ⟨1, 1⟩ v n) vs

section
variable {W : Nat}

/-- The objects `vs` all have type `v` and hold the values `xs`. -/
def AllHold (W : Nat) (v : Rng) (vs : List BInt) (xs : List Int) : Prop :=
  List.Forall₂ (fun b x => b.rng = v ∧ Holds W b x) vs xs

theorem assumeTarget_spec (hW : 64 ≤ W) {r : Rng} (hr : r.Wf W) {b : BInt} {x : Int} (hb : Holds W b x)
    (hin : r.lo ≤ x ∧ x ≤ r.hi) : ∃ c, assumeTarget W r b = some (.ok c) ∧ c.rng = r ∧ Holds W c x := by
  have m := value_mem hb.2 ((wf_iff hW _).mp hb.1).1
  have w := ((wf_iff hW _).mp hr).1
  unfold Rng.Mem at m
  obtain ⟨c, c1, c2, c3⟩ := (assumeInRange_spec hW (lo := r.lo) (hi := r.hi) hb (hr.rep hW).1 (hr.rep hW).2
    (by omega) w).1 hin
  unfold assumeTarget
  rw [c1]
  simp only [Option.bind_eq_bind, Option.bind_some]
  split
  · rename_i he; exact ⟨c, rfl, he, c3⟩
  · exact convert_holds hW hr c3 (by rw [c2]; simp only; omega)

theorem assumeTarget_ub (hW : 64 ≤ W) {r : Rng} (hr : r.Wf W) {b : BInt} {x : Int} (hb : Holds W b x)
    (hin : ¬ (r.lo ≤ x ∧ x ≤ r.hi)) (hov : r.lo ≤ b.rng.hi ∧ b.rng.lo ≤ r.hi) :
    assumeTarget W r b = some .ub := by
  have w := ((wf_iff hW _).mp hr).1
  have := (assumeInRange_spec hW (lo := r.lo) (hi := r.hi) hb (hr.rep hW).1 (hr.rep hW).2 hov w).2 hin
  unfold assumeTarget
  rw [this]
  simp only [Option.bind_eq_bind, Option.bind_some]

/-- Every partial result of folding `f` over `xs` from `a` lies in `r`. -/
def PartialsIn (r : Rng) (f : Int → Int → Int) (a : Int) : List Int → Prop
  | [] => True
  | x :: xs => (r.lo ≤ f a x ∧ f a x ≤ r.hi) ∧ PartialsIn r f (f a x) xs

theorem accumulateLoop_spec (hW : 64 ≤ W) {op : BInt → BInt → Option (Res BInt)} {f : Int → Int → Int}
    {r v : Rng} (hr : r.Wf W)
    (hop : ∀ {a b : BInt} {x y : Int}, a.rng = r → b.rng = v → Holds W a x → Holds W b y →
      ∃ c, op a b = some (.ok c) ∧ Holds W c (f x y)) :
    ∀ (vs : List BInt) (xs : List Int) (acc : BInt) (a : Int), AllHold W v vs xs → acc.rng = r → Holds W acc a →
      PartialsIn r f a xs →
      ∃ c, accumulateLoop W op r acc vs = some (.ok c) ∧ c.rng = r ∧ Holds W c (xs.foldl f a) := by
  intro vs
  induction vs with
  | nil =>
    intro xs acc a h hr' hacc _
    cases h
    exact ⟨acc, rfl, hr', hacc⟩
  | cons b vs ih =>
    intro xs acc a h hr' hacc hp
    cases h with
    | cons hb ht =>
      rename_i y ys
      obtain ⟨c, c1, c2⟩ := hop hr' hb.1 hacc hb.2
      obtain ⟨d, d1, d2, d3⟩ := assumeTarget_spec hW hr c2 hp.1
      obtain ⟨e, e1, e2, e3⟩ := ih ys d (f a y) ht d2 d3 hp.2
      refine ⟨e, ?_, e2, e3⟩
      show thenB (thenB (op acc b) fun c => assumeTarget W r c) _ = _
      rw [c1]
      simp only [thenB_ok]
      rw [d1]
      simp only [thenB_ok]
      exact e1

/-- C52: `sum<Result>(range)` with any explicit result type is the exact sum if every
partial sum fits that type. -/
theorem C52_sum_to_exact (hW : 64 ≤ W) {r v : Rng} (hr : r.Wf W) (h0 : r.lo ≤ 0 ∧ 0 ≤ r.hi)
    (hc : plusTy W r v ≠ none) {vs : List BInt} {xs : List Int} (h : AllHold W v vs xs)
    (hp : PartialsIn r (· + ·) 0 xs) : Yields (sumTo W r vs) r xs.sum := by
  obtain ⟨c, c1, c2, c3⟩ := convert_holds hW hr (constB_holds hW (v := 0) (by unfold Rep; have := pow_facts hW; omega)) (by simp only [constB]; omega)
  obtain ⟨d, d1, d2, d3⟩ := accumulateLoop_spec hW (op := plus W) (f := (· + ·)) (v := v) hr
    (fun {a b x y} ha hb ga gb => plus_holds hW ga gb (by
      cases ht : plusTy W r v with
      | none => exact absurd ht hc
      | some q => unfold plus; rw [ha, hb, ht]; simp)) vs xs c 0 h c2 c3 hp
  have : xs.sum = xs.foldl (· + ·) 0 := by rw [List.sum_eq_foldl]
  rw [this]
  refine yields_of hW ⟨d, ?_, d2, d3.2⟩ hr
  unfold sumTo accumulate
  rw [c1]; exact d1

/-- Partial sums of at most `n` values between `lo` and `hi`. -/
theorem partials_sum {r : Rng} {lo hi : Int} : ∀ (xs : List Int) (n : Nat) (a : Int),
    (∀ x ∈ xs, lo ≤ x ∧ x ≤ hi) → xs.length ≤ n →
    r.lo ≤ a → a ≤ r.hi → r.lo ≤ a + n * lo → a + n * hi ≤ r.hi →
    PartialsIn r (· + ·) a xs
  | [], _, _, _, _, _, _, _, _ => trivial
  | x :: xs, 0, _, _, hl, _, _, _, _ => by simp at hl
  | x :: xs, n + 1, a, hx, hl, h1, h2, h3, h4 => by
    have hx0 := hx x (by simp)
    have hl' : xs.length ≤ n := by simpa using hl
    have e1 : ((n + 1 : Nat) : Int) * lo = n * lo + lo := by push_cast; ring
    have e2 : ((n + 1 : Nat) : Int) * hi = n * hi + hi := by push_cast; ring
    rw [e1] at h3
    rw [e2] at h4
    have k1 : a + x ≤ r.hi := by
      by_cases hh : 0 ≤ hi
      · have := Int.mul_nonneg (Int.natCast_nonneg n) hh; omega
      · omega
    have k2 : r.lo ≤ a + x := by
      by_cases hh : lo ≤ 0
      · have := Int.mul_nonpos_of_nonneg_of_nonpos (Int.natCast_nonneg n) hh; omega
      · omega
    exact ⟨⟨k2, k1⟩, partials_sum xs n (a + x) (fun y hy => hx y (by simp [hy])) hl' k2 k1 (by omega) (by omega)⟩

theorem allHold_length {v : Rng} {vs : List BInt} {xs : List Int} (h : AllHold W v vs xs) :
    vs.length = xs.length := List.Forall₂.length_eq h

theorem allHold_mem (hW : 64 ≤ W) {v : Rng} (hv : v.Wf W) {vs : List BInt} {xs : List Int}
    (h : AllHold W v vs xs) : ∀ x ∈ xs, v.lo ≤ x ∧ x ≤ v.hi := by
  induction h with
  | nil => simp
  | cons hb _ ih =>
    intro x hx
    simp only [List.mem_cons] at hx
    rcases hx with rfl | hx
    · have := value_mem hb.2.2 ((wf_iff hW _).mp hb.2.1).1
      rw [hb.1] at this
      exact this
    · exact ih x hx

/-- C52: `sum(range)` with the deduced result type returns the exact sum, for every range
whose length fits its `difference_type`. Partial because the deduced type is wrong when
the multiplication that computes it wraps (`C52_sum_violated`), which `MulSafe` excludes. -/
theorem C52_sum_exact_partial (hW : 64 ≤ W) {v : Rng} (hv : v.Wf W) {n : Nat}
    {r : Rng} (hr : sumTy W ⟨0, 0⟩ v n = some r) (hs : MulSafe W v ⟨0, n⟩) (hc : plusTy W r v ≠ none)
    {vs : List BInt} {xs : List Int} (h : AllHold W v vs xs) (hl : vs.length ≤ n) :
    Yields (sum W v n vs) r xs.sum := by
  have hl' : xs.length ≤ n := by rw [← allHold_length h]; exact hl
  have hm := allHold_mem hW hv h
  have hr' := hr
  unfold sumTy at hr
  cases hn : mkInteger W 0 (n : Int) with
  | none => rw [hn] at hr; simp at hr
  | some len =>
    have hlen := mkInteger_some hW hn
    have lwf := wf_of_mk hW hn
    rw [hn] at hr
    simp only [Option.bind_eq_bind, Option.bind_some] at hr
    have hlo : -(2 ^ (W - 1)) ≤ (mulRange v len).lo := by
      rw [hlen.1]
      unfold MulSafe at hs; simp at hs
      unfold mulRange; simp; omega
    rw [hlen.1] at hr lwf hlo
    rw [mulTy_eq hW hv lwf hlo] at hr
    cases hmk : mkInteger W (mulRange v ⟨0, n⟩).lo (mulRange v ⟨0, n⟩).hi with
    | none => rw [hmk] at hr; simp at hr
    | some m =>
      rw [hmk] at hr
      simp only [Option.bind_some] at hr
      have m1 := (mkInteger_some hW hmk).1
      have mwf := wf_of_mk hW hmk
      have c0 := constB_holds hW (v := 0) (by unfold Rep; have := pow_facts hW; omega)
      rw [plusTy_eq hW (show (Rng.mk 0 0).Wf W from c0.1) mwf] at hr
      have rr := (mkInteger_some hW hr).1
      have rwf := wf_of_mk hW hr
      have e1 : r.lo = (mulRange v ⟨0, n⟩).lo := by rw [rr, m1]; simp [constB]
      have e2 : r.hi = (mulRange v ⟨0, n⟩).hi := by rw [rr, m1]; simp [constB]
      unfold mulRange at e1 e2
      simp only [Int.mul_zero] at e1 e2
      have vl := ((wf_iff hW _).mp hv).1
      have vm := Int.mul_le_mul_of_nonneg_right vl (Int.natCast_nonneg n)
      have key := C52_sum_to_exact hW rwf (by omega) hc h (partials_sum xs n 0 hm hl' (by omega) (by omega)
        (by rw [Int.mul_comm (n : Int)]; omega) (by rw [Int.mul_comm (n : Int)]; omega))
      unfold sum
      rw [hr']
      exact key

/-- A vector of `integer<-10, 100>` of three elements. -/
example : sumTy 128 ⟨0, 0⟩ ⟨-10, 100⟩ (2 ^ 63 - 1) = some ⟨-10 * (2 ^ 63 - 1), 100 * (2 ^ 63 - 1)⟩ ∧
    MulSafe 128 ⟨-10, 100⟩ ⟨0, 2 ^ 63 - 1⟩ ∧
    plusTy 128 ⟨-10 * (2 ^ 63 - 1), 100 * (2 ^ 63 - 1)⟩ ⟨-10, 100⟩ ≠ none ∧
    sum 128 ⟨-10, 100⟩ (2 ^ 63 - 1) [⟨⟨-10, 100⟩, 100⟩, ⟨⟨-10, 100⟩, -3⟩, ⟨⟨-10, 100⟩, 7⟩] =
      some (.ok ⟨⟨-10 * (2 ^ 63 - 1), 100 * (2 ^ 63 - 1)⟩, 104⟩) := by decide +kernel

/-- C52 is violated for very wide negative element types: the deduced type of the sum of
a range of `integer<-2^65, 0>` with 64-bit `difference_type` is `integer<0, 2^65>`,
and summing the single element `-1` has undefined behaviour. -/
theorem C52_sum_violated :
    ∃ (v : Rng) (n : Nat) (b : BInt), v.Wf 128 ∧ b.rng = v ∧ Holds 128 b (-1) ∧ n = 2 ^ 63 - 1 ∧
      sumTy 128 ⟨0, 0⟩ v n = some ⟨0, 2 ^ 65⟩ ∧ sum 128 v n [b] = some .ub := by
  refine ⟨⟨-2 ^ 65, 0⟩, 2 ^ 63 - 1, ⟨⟨-2 ^ 65, 0⟩, -1⟩, ?_⟩
  unfold Holds
  decide +kernel

/-- C52: `product<Result>(range)` with any explicit result type is the exact product if
every partial product fits that type. -/
theorem C52_product_to_exact (hW : 64 ≤ W) {r v : Rng} (hr : r.Wf W) (h0 : r.lo ≤ 1 ∧ 1 ≤ r.hi)
    (hs : MulSafe W r v) (hc : mulTy W r v ≠ none) {vs : List BInt} {xs : List Int} (h : AllHold W v vs xs)
    (hp : PartialsIn r (· * ·) 1 xs) : Yields (productTo W r vs) r xs.prod := by
  obtain ⟨c, c1, c2, c3⟩ := convert_holds hW hr (constB_holds hW (rep_one hW)) (by simp only [constB]; omega)
  obtain ⟨d, d1, d2, d3⟩ := accumulateLoop_spec hW (op := mul W) (f := (· * ·)) (v := v) hr
    (fun {a b x y} ha hb ga gb => mul_holds hW ga gb (by rw [ha, hb]; exact hs) (by
      cases ht : mulTy W r v with
      | none => exact absurd ht hc
      | some q => unfold mul; rw [ha, hb, ht]; simp)) vs xs c 1 h c2 c3 hp
  have : xs.prod = xs.foldl (· * ·) 1 := by rw [List.prod_eq_foldl]
  rw [this]
  refine yields_of hW ⟨d, ?_, d2, d3.2⟩ hr
  unfold productTo accumulate
  rw [c1]; exact d1

theorem partials_product {r : Rng} {hi : Int} (h1 : 1 ≤ hi) (hlo : r.lo ≤ 1) : ∀ (xs : List Int) (n : Nat) (a : Int),
    (∀ x ∈ xs, 1 ≤ x ∧ x ≤ hi) → xs.length ≤ n → 1 ≤ a → a * hi ^ n ≤ r.hi →
    PartialsIn r (· * ·) a xs
  | [], _, _, _, _, _, _ => trivial
  | x :: xs, 0, _, _, hl, _, _ => by simp at hl
  | x :: xs, n + 1, a, hx, hl, ha, hb => by
    have hx0 := hx x (by simp)
    have hl' : xs.length ≤ n := by simpa using hl
    have p1 : 1 ≤ a * x := by
      have := Int.mul_le_mul_of_nonneg_right ha (show 0 ≤ x by omega); omega
    have p2 : 1 ≤ hi ^ n := one_le_pow₀ h1
    have p3 : a * x * hi ^ n ≤ a * hi ^ (n + 1) := by
      rw [pow_succ', ← mul_assoc]
      exact mul_le_mul_of_nonneg_right (mul_le_mul_of_nonneg_left hx0.2 (by omega)) (by omega)
    have p4 : a * x ≤ a * x * hi ^ n := le_mul_of_one_le_right (by omega) p2
    exact ⟨⟨by show r.lo ≤ a * x; omega, by show a * x ≤ r.hi; omega⟩, partials_product h1 hlo xs n (a * x) (fun y hy => hx y (by simp [hy])) hl' p1 (by omega)⟩

/-- C52: `product(range)` with the deduced result type, whenever it compiles, returns the
exact product. (It compiles only when the largest possible product is representable,
so for element types that admit 0 or negative numbers it never compiles.) -/
theorem C52_product_exact (hW : 64 ≤ W) {v : Rng} (hv : v.Wf W) {n : Nat}
    {r : Rng} (hr : productTy W ⟨1, 1⟩ v n = some r) (hc : mulTy W r v ≠ none)
    {vs : List BInt} {xs : List Int} (h : AllHold W v vs xs) (hl : vs.length ≤ n) :
    Yields (product W v n vs) r xs.prod := by
  have hl' : xs.length ≤ n := by rw [← allHold_length h]; exact hl
  have hm := allHold_mem hW hv h
  have vl := ((wf_iff hW _).mp hv).1
  have hr' := hr
  unfold productTy at hr
  cases hn : mkInteger W 0 (n : Int) with
  | none => rw [hn] at hr; simp at hr
  | some len =>
    have hlen := (mkInteger_some hW hn).1
    have lwf := wf_of_mk hW hn
    rw [hn] at hr
    simp only [Option.bind_eq_bind, Option.bind_some] at hr
    have hb := holds_of_mem hW hv (x := v.lo) ⟨by omega, vl⟩
    have he := holds_of_mem hW lwf (x := 0) (by rw [hlen]; constructor <;> simp)
    cases hp : pow W (v.unchecked W v.lo) (len.unchecked W 0) with
    | none => rw [hp] at hr; simp at hr
    | some res =>
      obtain ⟨k1, k2, k3, k4⟩ := C17_pow_exact hW hb.1 he.1 (by rw [hp]; simp)
      obtain ⟨p, p1, p2, p3, p4⟩ := k4
      rw [hp] at p1
      simp only [Option.some.injEq] at p1
      subst p1
      rw [hp] at hr
      simp only [Option.bind_some] at hr
      rw [hb.2, he.2, hlen] at p2
      simp only [Int.toNat_zero, pow_zero, Int.toNat_natCast] at p2
      have v1 : 1 ≤ v.lo := by
        rcases lt_or_ge v.lo 1 with h | h
        · exact absurd ⟨by omega, rfl⟩ k3
        · exact h
      have pwr : 1 ≤ v.hi ^ n := one_le_pow₀ (by omega)
      have c1 := constB_holds hW (v := 1) (rep_one hW)
      have pwf : p.rng.Wf W := by
        obtain ⟨_, _, _, c, d1, d2, d3⟩ := pow_spec hW hb.1 he.1 (by rw [hp]; simp)
        rw [hp] at d1
        simp only [Option.some.injEq, Res.ok.injEq] at d1
        rw [d1]; exact d2.1
      have hmr : mulRange ⟨1, 1⟩ p.rng = ⟨1, v.hi ^ n⟩ := by
        unfold mulRange; rw [p2]; simp only [one_mul]; congr 1 <;> omega
      have hpos : (0 : Int) < 2 ^ (W - 1) := by positivity
      rw [mulTy_eq hW (show (Rng.mk 1 1).Wf W from c1.1) pwf (by show _ ≤ (mulRange ⟨1, 1⟩ p.rng).lo; rw [hmr]; simp only; omega)] at hr
      have hr2 := hr
      have rr := (mkInteger_some hW hr2).1
      have rwf := wf_of_mk hW hr2
      have e := hmr
      have rr' : r = ⟨1, v.hi ^ n⟩ := by rw [rr]; show Rng.mk (mulRange ⟨1, 1⟩ p.rng).lo (mulRange ⟨1, 1⟩ p.rng).hi = _; rw [hmr]
      have key := C52_product_to_exact hW (v := v) rwf (by rw [rr']; simp only; omega) (by
        rw [rr']
        have n1 : (0 : Int) ≤ 1 * v.lo := by omega
        have n2 : (0 : Int) ≤ 1 * v.hi := by omega
        have n3 : (0 : Int) ≤ v.hi ^ n * v.lo := by positivity
        have n4 : (0 : Int) ≤ v.hi ^ n * v.hi := Int.mul_nonneg (by omega) (by omega)
        intro q hq
        simp only [List.mem_cons, List.not_mem_nil, or_false] at hq
        rcases hq with rfl | rfl | rfl | rfl <;> omega) hc h
        (partials_product (hi := v.hi) (by omega) (by rw [rr']) xs n 1 (fun x hx => by have := hm x hx; omega) hl'
          (by omega) (by rw [rr']; simp))
      unfold product
      rw [hr']
      exact key

/-- An array of at most four numbers between 1 and 10. -/
example : productTy 128 ⟨1, 1⟩ ⟨1, 10⟩ 4 = some ⟨1, 10000⟩ ∧ mulTy 128 ⟨1, 10000⟩ ⟨1, 10⟩ ≠ none ∧
    product 128 ⟨1, 10⟩ 4 [⟨⟨1, 10⟩, 10⟩, ⟨⟨1, 10⟩, 7⟩, ⟨⟨1, 10⟩, 3⟩] = some (.ok ⟨⟨1, 10000⟩, 210⟩) := by
  decide +kernel

end
end Verif.Bounded
