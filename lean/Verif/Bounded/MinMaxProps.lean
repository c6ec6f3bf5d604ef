import Verif.Bounded.MinMax
import Verif.Bounded.IntegerProps
import Verif.Bounded.ArithProps

/-!
# Property C14 (min, max, clamp, abs) and C55 (round_up_divide)
-/

namespace Verif.Bounded

open Verif

variable {W : Nat}

theorem apply_eq (hW : 64 ≤ W) (s : Cmp) {a b : BInt} {x y : Int} (ha : Holds W a x)
    (hb : Holds W b y) :
    s.apply W b a = .ok (match s with | .less => decide (y < x) | .greater => decide (y > x)) := by
  obtain ⟨o, ho, h1, h2, h3⟩ := C09_compare_exact hW hb.1 ha.1 hb.2 ha.2
  unfold Cmp.apply
  rw [ho]
  cases s <;> simp only [Res.ok_bind, Res.pure_def, Res.ok.injEq] <;> rw [Bool.eq_iff_iff] <;> simp
  · exact h1
  · exact h3

/-- One step: `extreme2` yields the smaller (larger) value in the expected range. -/
theorem extreme2_value (hW : 64 ≤ W) (s : Cmp) {a b : BInt} {x y : Int} (ha : Holds W a x)
    (hb : Holds W b y) :
    ∃ c, extreme2 W s a b = some (.ok c) ∧ Holds W c (s.op x y) ∧
      c.rng = ⟨s.op a.rng.lo b.rng.lo, s.op a.rng.hi b.rng.hi⟩ := by
  have wa := (wf_iff hW _).mp ha.1
  have wb := (wf_iff hW _).mp hb.1
  have mx := value_mem ha.2 wa.1
  have my := value_mem hb.2 wb.1
  unfold Rng.Mem at mx my
  have hmk : mkInteger W (s.op a.rng.lo b.rng.lo) (s.op a.rng.hi b.rng.hi) =
      some ⟨s.op a.rng.lo b.rng.lo, s.op a.rng.hi b.rng.hi⟩ := by
    rw [mkInteger_eq hW, if_pos]
    obtain ⟨w1, w2⟩ := wa
    obtain ⟨w3, w4⟩ := wb
    unfold Storable at w2 w4 ⊢
    have ⟨h1, h2⟩ := pow_facts hW
    cases s <;> simp only [Cmp.op] <;> omega
  have hwf := wf_of_mk hW hmk
  have ap := apply_eq hW s ha hb
  unfold extreme2
  simp only [select_eq, hmk, Option.bind_eq_bind, Option.bind_some]
  generalize hr : (⟨s.op a.rng.lo b.rng.lo, s.op a.rng.hi b.rng.hi⟩ : Rng) = r at *
  have hrlo : r.lo = s.op a.rng.lo b.rng.lo := by rw [← hr]
  have hrhi : r.hi = s.op a.rng.hi b.rng.hi := by rw [← hr]
  rw [overlaps_eq hW hb.1 hwf, overlaps_eq hW ha.1 hwf, ap]
  split
  · rename_i hsame
    simp only [Res.ok_bind, Res.pure_def]
    refine ⟨_, rfl, ?_, ?_⟩
    · cases s <;> simp only [Cmp.op] <;> split <;> rename_i hc <;> simp at hc
      · rw [min_eq_right (by omega)]; exact hb
      · rw [min_eq_left (by omega)]; exact ha
      · rw [max_eq_right (by omega)]; exact hb
      · rw [max_eq_left (by omega)]; exact ha
    · rw [hsame.1]
      cases s <;> simp only <;> split
      · exact hsame.2.symm
      · rfl
      · exact hsame.2.symm
      · rfl
  · split
    · rename_i hno
      simp only [Bool.not_eq_true', decide_eq_false_iff_not] at hno
      refine ⟨a, rfl, ?_, ?_⟩
      · cases s <;> simp only [Cmp.op] at *
        · rw [min_eq_left (by omega)]; exact ha
        · rw [max_eq_left (by omega)]; exact ha
      · rw [← hr]
        cases s <;> simp only [Cmp.op] at *
        · rw [min_eq_left (by omega), min_eq_left (by omega)]
        · rw [max_eq_left (by omega), max_eq_left (by omega)]
    · split
      · rename_i hno
        simp only [Bool.not_eq_true', decide_eq_false_iff_not] at hno
        refine ⟨b, rfl, ?_, ?_⟩
        · cases s <;> simp only [Cmp.op] at *
          · rw [min_eq_right (by omega)]; exact hb
          · rw [max_eq_right (by omega)]; exact hb
        · rw [← hr]
          cases s <;> simp only [Cmp.op] at *
          · rw [min_eq_right (by omega), min_eq_right (by omega)]
          · rw [max_eq_right (by omega), max_eq_right (by omega)]
      · have hm : r.Mem (s.op x y) := by
          unfold Rng.Mem
          rw [hrlo, hrhi]
          cases s <;> simp only [Cmp.op] <;> omega
        refine ⟨_, ?_, ⟨hwf, unchecked_value hW hwf hm rfl⟩, rfl⟩
        simp only [Res.ok_bind, Res.pure_def, ha.2, hb.2]
        clear hr hrlo hrhi hm hmk ap
        cases s <;> simp only [Cmp.op] <;> split <;> rename_i hc <;> simp at hc
        · rw [min_eq_right (by omega)]
        · rw [min_eq_left (by omega)]
        · rw [max_eq_right (by omega)]
        · rw [max_eq_left (by omega)]

theorem extreme_value (hW : 64 ≤ W) (s : Cmp) : ∀ {ts : List BInt} {xs : List Int} {t : BInt} {x : Int},
    Holds W t x → List.Forall₂ (Holds W) ts xs →
    ∃ c, extreme W s t ts = some (.ok c) ∧ Holds W c (xs.foldl s.op x) ∧
      c.rng = ⟨(ts.map (·.rng.lo)).foldl s.op t.rng.lo, (ts.map (·.rng.hi)).foldl s.op t.rng.hi⟩
  | [], _, t, x, ht, .nil => ⟨t, rfl, ht, rfl⟩
  | u :: ts, y :: xs, t, x, ht, .cons hu hts => by
    obtain ⟨c, h1, h2, h3⟩ := extreme2_value hW s ht hu
    obtain ⟨d, e1, e2, e3⟩ := extreme_value hW s h2 hts
    refine ⟨d, ?_, e2, ?_⟩
    · unfold extreme
      simp only [h1, Option.bind_eq_bind, Option.bind_some]
      exact e1
    · rw [e3, h3]; rfl

theorem foldl_min_spec (xs : List Int) (x : Int) :
    xs.foldl min x ∈ x :: xs ∧ ∀ y ∈ x :: xs, xs.foldl min x ≤ y := by
  induction xs generalizing x with
  | nil => simp
  | cons y ys ih =>
    obtain ⟨h1, h2⟩ := ih (min x y)
    simp only [List.foldl_cons, List.mem_cons] at *
    refine ⟨?_, ?_⟩
    · rcases h1 with h | h
      · rcases min_choice x y with e | e
        · left; omega
        · right; left; omega
      · right; right; exact h
    · rintro z (rfl | rfl | hz)
      · have := h2 (min z y) (Or.inl rfl); omega
      · have := h2 (min x z) (Or.inl rfl); omega
      · exact h2 z (Or.inr hz)

theorem foldl_max_spec (xs : List Int) (x : Int) :
    xs.foldl max x ∈ x :: xs ∧ ∀ y ∈ x :: xs, y ≤ xs.foldl max x := by
  induction xs generalizing x with
  | nil => simp
  | cons y ys ih =>
    obtain ⟨h1, h2⟩ := ih (max x y)
    simp only [List.foldl_cons, List.mem_cons] at *
    refine ⟨?_, ?_⟩
    · rcases h1 with h | h
      · rcases max_choice x y with e | e
        · left; omega
        · right; left; omega
      · right; right; exact h
    · rintro z (rfl | rfl | hz)
      · have := h2 (max z y) (Or.inl rfl); omega
      · have := h2 (max x z) (Or.inl rfl); omega
      · exact h2 z (Or.inr hz)

theorem yields_of_holds (hW : 64 ≤ W) {out : Option (Res BInt)} {c : BInt} {v : Int}
    (h : out = some (.ok c)) (hc : Holds W c v) : Yields out c.rng v :=
  yields_of hW ⟨c, h, rfl, hc.2⟩ hc.1

/-- C14: `min` of any positive number of bounded integers of any types compiles, and what it
selects is the least argument value, inside the declared range. (With three or more arguments
the result can refer to an object that has ended: `C14_three_violated`.) -/
theorem C14_min_exact (hW : 64 ≤ W) {t : BInt} {ts : List BInt} {x : Int} {xs : List Int}
    (ht : Holds W t x) (hts : List.Forall₂ (Holds W) ts xs) :
    ∃ r v, Yields (extreme W .less t ts) r v ∧ v ∈ x :: xs ∧ ∀ y ∈ x :: xs, v ≤ y := by
  obtain ⟨c, h1, h2, _⟩ := extreme_value hW .less ht hts
  exact ⟨c.rng, _, yields_of_holds hW h1 h2, foldl_min_spec xs x⟩

/-- C14: `max` of any positive number of bounded integers of any types compiles, and what it
selects is the greatest argument value, inside the declared range. -/
theorem C14_max_exact (hW : 64 ≤ W) {t : BInt} {ts : List BInt} {x : Int} {xs : List Int}
    (ht : Holds W t x) (hts : List.Forall₂ (Holds W) ts xs) :
    ∃ r v, Yields (extreme W .greater t ts) r v ∧ v ∈ x :: xs ∧ ∀ y ∈ x :: xs, y ≤ v := by
  obtain ⟨c, h1, h2, _⟩ := extreme_value hW .greater ht hts
  exact ⟨c.rng, _, yields_of_holds hW h1 h2, foldl_max_spec xs x⟩

/-- C14: the declared range of `min` is `[least min, least max]`, of `max`
`[greatest min, greatest max]`. -/
theorem C14_minmax_range (hW : 64 ≤ W) {t : BInt} {ts : List BInt} {x : Int} {xs : List Int}
    (ht : Holds W t x) (hts : List.Forall₂ (Holds W) ts xs) :
    (∃ c, extreme W .less t ts = some (.ok c) ∧
      c.rng.lo = (ts.map (·.rng.lo)).foldl min t.rng.lo ∧
      c.rng.hi = (ts.map (·.rng.hi)).foldl min t.rng.hi) ∧
    (∃ c, extreme W .greater t ts = some (.ok c) ∧
      c.rng.lo = (ts.map (·.rng.lo)).foldl max t.rng.lo ∧
      c.rng.hi = (ts.map (·.rng.hi)).foldl max t.rng.hi) := by
  constructor
  · obtain ⟨c, h1, _, h3⟩ := extreme_value hW .less ht hts
    exact ⟨c, h1, by rw [h3]; rfl, by rw [h3]; rfl⟩
  · obtain ⟨c, h1, _, h3⟩ := extreme_value hW .greater ht hts
    exact ⟨c, h1, by rw [h3]; rfl, by rw [h3]; rfl⟩

example : extreme 128 .less ⟨⟨0, 0⟩, 0⟩ [⟨⟨10, 10⟩, 0⟩, ⟨⟨5, 5⟩, 0⟩, ⟨⟨-53, 1000⟩, 3⟩] =
    some (.ok ⟨⟨-53, 0⟩, 0⟩) := by decide +kernel
example : List.Forall₂ (Holds 128) [⟨⟨10, 10⟩, 0⟩, ⟨⟨5, 5⟩, 0⟩, ⟨⟨-53, 1000⟩, 3⟩] [10, 5, 3] := by
  unfold Holds
  repeat' first | apply List.Forall₂.nil | apply List.Forall₂.cons
  all_goals decide +kernel

/-- C14, generic types: `extreme(compare, t, ts...)` for a strict weak order returns
the first argument that no argument beats. -/
theorem C14_generic_extreme_first {α : Type} (compare : α → α → Bool)
    (irrefl : ∀ a, compare a a = false)
    (ntrans : ∀ a b c, compare a b = false → compare b c = false → compare a c = false)
    (asymm : ∀ a b, compare a b = true → compare b a = false)
    (t : α) (ts : List α) :
    ∃ pre post, t :: ts = pre ++ extremeGeneric compare t ts :: post ∧
      (∀ u ∈ pre, compare (extremeGeneric compare t ts) u = true) ∧
      (∀ u ∈ post, compare u (extremeGeneric compare t ts) = false) := by
  -- generalise: `pre0` are the arguments already beaten
  have key : ∀ (ts : List α) (t : α) (pre0 mid : List α),
      (∀ u ∈ pre0, compare t u = true) → (∀ u ∈ mid, compare u t = false) →
      ∃ pre post, pre0 ++ t :: mid ++ ts = pre ++ extremeGeneric compare t ts :: post ∧
        (∀ u ∈ pre, compare (extremeGeneric compare t ts) u = true) ∧
        (∀ u ∈ post, compare u (extremeGeneric compare t ts) = false) := by
    intro ts
    induction ts with
    | nil =>
      intro t pre0 mid h1 h2
      exact ⟨pre0, mid, by simp [extremeGeneric], by simpa [extremeGeneric] using h1,
        by simpa [extremeGeneric] using h2⟩
    | cons y ys ih =>
      intro t pre0 mid h1 h2
      by_cases hc : compare y t = true
      · have beats : ∀ u, compare u t = false → compare y u = true := by
          intro u hu
          by_contra hb
          have hb : compare y u = false := by simpa using hb
          have := ntrans y u t hb hu
          rw [hc] at this; exact absurd this (by simp)
        obtain ⟨pre, post, e, p1, p2⟩ := ih y (pre0 ++ t :: mid) [] (by
          intro u hu
          simp only [List.mem_append, List.mem_cons] at hu
          rcases hu with hu | rfl | hu
          · exact beats u (by
              have := h1 u hu
              exact asymm _ _ this)
          · exact hc
          · exact beats u (h2 u hu)) (by simp)
        refine ⟨pre, post, ?_, ?_, ?_⟩
        · simp only [extremeGeneric, hc, if_true]
          rw [← e]; simp
        · simpa only [extremeGeneric, hc, if_true] using p1
        · simpa only [extremeGeneric, hc, if_true] using p2
      · have hc' : compare y t = false := by simpa using hc
        obtain ⟨pre, post, e, p1, p2⟩ := ih t pre0 (mid ++ [y]) h1 (by
          intro u hu
          simp only [List.mem_append, List.mem_singleton] at hu
          rcases hu with hu | rfl
          · exact h2 u hu
          · exact hc')
        refine ⟨pre, post, ?_, ?_, ?_⟩
        · simp only [extremeGeneric, hc', Bool.false_eq_true, if_false]
          rw [← e]; simp
        · simpa only [extremeGeneric, hc', Bool.false_eq_true, if_false] using p1
        · simpa only [extremeGeneric, hc', Bool.false_eq_true, if_false] using p2
  simpa using key ts t [] [] (by simp) (by simp)

/-- A case with ties: pairs compared by first component; the first of the two least
is returned. -/
example : extremeGeneric (fun a b : Nat × Nat => decide (a.1 < b.1)) (3, 0) [(1, 1), (2, 2), (1, 3)] = (1, 1) := by
  decide

/-- C14: `clamp(value, lo, hi)` with `lo <= hi` compiles, is defined and is `lo`
below, `hi` above and the value itself inside the interval. -/
theorem C14_clamp_exact (hW : 64 ≤ W) {a l h : BInt} {x lo hi : Int} (ha : Holds W a x)
    (hl : Holds W l lo) (hh : Holds W h hi) (hle : lo ≤ hi) :
    ∃ r v, Yields (clamp W a l h) r v ∧ (x < lo → v = lo) ∧ (hi < x → v = hi) ∧
      (lo ≤ x → x ≤ hi → v = x) := by
  obtain ⟨c, h1, h2, _⟩ := extreme_value hW .greater ha (List.Forall₂.cons hl .nil)
  obtain ⟨d, e1, e2, _⟩ := extreme_value hW .less h2 (List.Forall₂.cons hh .nil)
  refine ⟨d.rng, _, yields_of_holds hW ?_ e2, ?_⟩
  · unfold clamp
    simp only [h1, Option.bind_eq_bind, Option.bind_some]
    exact e1
  · simp only [List.foldl_cons, List.foldl_nil, Cmp.op]
    omega

example : clamp 128 ⟨⟨-100, 1000⟩, 300⟩ ⟨⟨0, 5⟩, 4⟩ ⟨⟨27, 567⟩, 200⟩ = some (.ok ⟨⟨0, 567⟩, 200⟩) := by
  decide +kernel

theorem increaseMin_value (hW : 64 ≤ W) {b : BInt} {x n : Int} (hb : Holds W b x) (hn : Rep W n)
    (hle : n ≤ x) : ∃ c, increaseMinUnchecked W n b = some (.ok c) ∧ Holds W c x ∧
      c.rng = ⟨max n b.rng.lo, b.rng.hi⟩ := by
  have wb := (wf_iff hW _).mp hb.1
  have mx := value_mem hb.2 wb.1
  have rb := hb.1.rep hW
  unfold Rng.Mem at mx
  have hmk : mkInteger W (max n b.rng.lo) b.rng.hi = some ⟨max n b.rng.lo, b.rng.hi⟩ := by
    rw [mkInteger_eq hW, if_pos]
    obtain ⟨w1, w2⟩ := wb
    unfold Storable at w2 ⊢
    have ⟨h1, h2⟩ := pow_facts hW
    omega
  have hwf := wf_of_mk hW hmk
  unfold increaseMinUnchecked
  rw [safeMax_eq hW hn rb.1, hmk]
  simp only [Option.bind_eq_bind, Option.bind_some, Option.pure_def, hb.2, Res.ok_bind, Res.pure_def]
  exact ⟨_, rfl, ⟨hwf, unchecked_value hW hwf (by unfold Rng.Mem; simp only; omega) rfl⟩, rfl⟩

theorem abs_value (hW : 64 ≤ W) {a : BInt} {x : Int} (ha : Holds W a x) (hc : abs W a ≠ none) :
    ∃ c, abs W a = some (.ok c) ∧ Holds W c |x| ∧
      c.rng = if 0 ≤ a.rng.lo then a.rng else if a.rng.hi ≤ 0 then ⟨-a.rng.hi, -a.rng.lo⟩ else ⟨0, max a.rng.hi (-a.rng.lo)⟩ := by
  have ⟨p1, p2⟩ := pow_facts hW
  have wa := (wf_iff hW _).mp ha.1
  have mx := value_mem ha.2 wa.1
  unfold Rng.Mem at mx
  unfold abs at hc ⊢
  split
  · rename_i h
    exact ⟨a, rfl, by rw [abs_of_nonneg (by omega)]; exact ha, rfl⟩
  · rename_i h1
    rw [if_neg h1] at hc
    split
    · rename_i h2
      rw [if_pos h2] at hc
      cases hr : negTy W a.rng with
      | none => exact absurd (by unfold neg; rw [hr]; rfl) hc
      | some r =>
        obtain ⟨c, e1, e2, e3, e4, e5⟩ := neg_value hW ha.1 hr ha.2
        refine ⟨c, e1, ⟨by rw [e2]; exact e5, ?_⟩, ?_⟩
        · rw [abs_of_nonpos (by omega)]; exact e3
        · rw [e2, e4]
    · rename_i h2
      rw [if_neg h2] at hc
      cases hr : negTy W a.rng with
      | none =>
        refine absurd ?_ hc
        unfold neg; rw [hr]; rfl
      | some r =>
        obtain ⟨c, e1, e2, e3, e4, e5⟩ := neg_value hW ha.1 hr ha.2
        have hcH : Holds W c (-x) := ⟨by rw [e2]; exact e5, e3⟩
        obtain ⟨d, d1, d2, d3⟩ := extreme_value hW .greater ha (List.Forall₂.cons hcH .nil)
        have d2' : Holds W d |x| := by
          have : |x| = max x (-x) := rfl
          rw [this]; exact d2
        obtain ⟨f, f1, f2, f3⟩ := increaseMin_value hW d2' (n := 0) (by unfold Rep; omega)
          (_root_.abs_nonneg x)
        refine ⟨f, ?_, f2, ?_⟩
        · simp only [e1, d1, Option.bind_eq_bind, Option.bind_some]
          exact f1
        · rw [f3, d3]
          simp only [List.map_cons, List.map_nil, List.foldl_cons, List.foldl_nil, Cmp.op, Rng.mk.injEq, e2, e4]
          exact ⟨by omega, trivial⟩

/-- C14: whenever `abs(a)` compiles it is the absolute value, in a non-negative
declared range. -/
theorem C14_abs_exact (hW : 64 ≤ W) {a : BInt} {x : Int} (ha : Holds W a x) (hc : abs W a ≠ none) :
    ∃ r, Yields (abs W a) r |x| ∧ 0 ≤ r.lo := by
  obtain ⟨c, h1, h2, h3⟩ := abs_value hW ha hc
  refine ⟨c.rng, yields_of_holds hW h1 h2, ?_⟩
  rw [h3]
  split
  · assumption
  · split <;> simp only <;> omega

example : abs 128 ⟨⟨-10, 4⟩, -5⟩ = some (.ok ⟨⟨0, 10⟩, 5⟩) := by decide +kernel

/-- C55: `round_up_divide(a, b)`, whenever it compiles, for a non-negative dividend and
a positive divisor is the quotient rounded up: the least `q` with `x <= q*y`, inside the
declared range. -/
theorem C55_round_up_divide (hW : 64 ≤ W) {a b : BInt} {x y : Int} (ha : Holds W a x)
    (hb : Holds W b y) (hc : roundUpDivide W a b ≠ none) (hx : 0 ≤ x) (hy : 0 < y) :
    ∃ r q, Yields (roundUpDivide W a b) r q ∧ x ≤ q * y ∧ (q - 1) * y < x := by
  have one : Holds W ⟨⟨1, 1⟩, 1⟩ 1 := by
    refine ⟨?_, rfl⟩
    rw [wf_iff hW]
    have ⟨p1, p2⟩ := pow_facts hW
    unfold Storable; simp only; omega
  unfold roundUpDivide at hc ⊢
  cases h1 : plus W a b with
  | none => rw [h1] at hc; exact absurd rfl hc
  | some o1 =>
    obtain ⟨s, s1, s2, s3, s4⟩ := C01_add_exact hW ha hb (by rw [h1]; simp)
    have sw : Holds W s (x + y) := by
      refine ⟨?_, s3⟩
      rw [s2]
      have := plusTy_eq hW ha.1 hb.1
      cases hp : plusTy W a.rng b.rng with
      | none => unfold plus at s1; rw [hp] at s1; simp at s1
      | some r => 
        obtain ⟨_, _, _, _, e, w⟩ := plus_value hW ha.1 hb.1 hp ha.2 hb.2
        rw [← e]; exact w
    rw [h1] at s1
    simp only [Option.some.injEq] at s1
    subst s1
    rw [h1] at hc
    simp only [Option.bind_eq_bind, Option.bind_some] at hc ⊢
    cases h2 : minus W s ⟨⟨1, 1⟩, 1⟩ with
    | none => rw [h2] at hc; exact absurd rfl hc
    | some o2 =>
      obtain ⟨m, m1, m2, m3, m4⟩ := C03_sub_exact hW sw one (by rw [h2]; simp)
      have mw : Holds W m (x + y - 1) := by
        refine ⟨?_, m3⟩
        cases hp : minusTy W s.rng ⟨1, 1⟩ with
        | none =>
          exfalso
          unfold minusTy at hp
          unfold minus at m1
          cases hn : negTy W (⟨1, 1⟩ : Rng) with
          | none => unfold neg at m1; rw [hn] at m1; simp at m1
          | some nt =>
            rw [hn] at hp
            simp only [Option.bind_eq_bind, Option.bind_some] at hp
            simp [hn, hp] at m1
        | some r =>
          obtain ⟨_, _, _, _, e, w⟩ := minus_value hW sw.1 one.1 hp sw.2 one.2
          rw [m2, ← e]; exact w
      rw [h2] at m1
      simp only [Option.some.injEq] at m1
      subst m1
      rw [h2] at hc
      simp only [Option.bind_some] at hc ⊢
      obtain ⟨r, hr⟩ := C04_div_exact hW mw hb hc (by omega)
      refine ⟨r, _, hr, ?_⟩
      rw [Int.tdiv_eq_ediv_of_nonneg (by omega)]
      have e1 := Int.emod_add_mul_ediv (x + y - 1) y
      have e2 := Int.emod_nonneg (x + y - 1) (show y ≠ 0 by omega)
      have e3 := Int.emod_lt_of_pos (x + y - 1) hy
      constructor
      · rw [Int.mul_comm]; omega
      · rw [Int.sub_mul, Int.mul_comm]; omega

example : roundUpDivide 128 ⟨⟨0, 100⟩, 7⟩ ⟨⟨1, 10⟩, 3⟩ = some (.ok ⟨⟨0, 109⟩, 3⟩) := by decide +kernel

end Verif.Bounded
