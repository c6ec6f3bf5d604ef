import Verif.Views.Adapt
import Mathlib.Tactic.Ring
import Mathlib.Tactic.Linarith
import Mathlib.Tactic.SplitIfs

/-!
# Ranges of integers (property C50)

Models /repo/source/containers/integer_range.cpp. An iterator is its value; the step is the same for all iterators of a range. What the types
contribute are the bounds of the storage (`lo`, `hi`: the least first value and the greatest sentinel) and the least step (`stepMin`).
-/

namespace Verif.Views

open Verif

/-- Storing a value in the `storage_type` of the iterator (integer_range.cpp:35): outside of its range the behaviour is undefined, as
`assume_in_range` (60) and the compound assignment (73) say. -/
def storeIn (lo hi v : Int) : Res Int := if lo ≤ v ∧ v ≤ hi then .ok v else .ub

/-- `integer_range_iterator` between the begin and the end of an `integer_range` (integer_range.cpp:32-95, 131-136). The `has_no_values` branches of `+`
and `++` are undefined there; the steps then leave the storage, which is undefined here as well. -/
def integerRange (lo hi stepMin step last : Int) : RA Int Int where
  atEnd v := .ok (decide (v = last))
  deref v := storeIn lo (max lo (hi - stepMin)) v
  next v := storeIn lo hi (v + step)
  eq v w := .ok (decide (v = w))
  add v n := storeIn lo hi (v + n * step)
  sub v w := if step = 0 then .ub else .ok ((v - w).tdiv step)
  cmp v w := .ok (compare v w)

/-- The constructor with a step (integer_range.cpp:110-116): the begin of the range if what it asserts holds. The other constructors have the step 1. -/
def integerRangeBegin (lo hi first last step : Int) : Res Int :=
  if step = 0 then .ub
  else if (last - first).tmod step = 0 then (do let _ ← storeIn lo hi last; storeIn lo hi first) else .ub

/-- `inclusive_integer_range` (integer_range.cpp:152-155); `stepMax` is the greatest step of the type, by which the type of `last + step` grows. -/
def inclusiveIntegerRange (lo hi stepMin stepMax step last : Int) : RA Int Int := integerRange lo (hi + stepMax) stepMin step (last + step)

/-- `n` values from `first` on, `step` apart. -/
def steps (first step : Int) (n : Nat) : List Int := (List.range n).map fun i : Nat => first + (i : Int) * step

theorem storeIn_ok {lo hi v : Int} (h1 : lo ≤ v) (h2 : v ≤ hi) : storeIn lo hi v = .ok v := by rw [storeIn, if_pos ⟨h1, h2⟩]

/-- A range of integers visits the values from `first` on that are a step apart and ends before `last`, upwards or downwards. -/
theorem C50_integer_range {lo hi stepMin first last step : Int} (n : Nat) (hs : step ≠ 0) (hmin : stepMin ≤ step) (hlast : last = first + n * step)
    (h1 : lo ≤ first ∧ first ≤ hi) (h2 : lo ≤ last ∧ last ≤ hi) :
    integerRangeBegin lo hi first last step = .ok first ∧
    Positions (integerRange lo hi stepMin step last).toFwd (fun i => first + i * step) (steps first step n) := by
  subst hlast
  have hin : ∀ i : Nat, i ≤ n → lo ≤ first + i * step ∧ first + i * step ≤ hi := by
    intro i hi'
    have h0 : (0 : Int) ≤ i := by omega
    have h3 : (i : Int) ≤ n := by omega
    rcases Int.lt_or_gt_of_ne hs with h | h <;> constructor <;> nlinarith
  refine ⟨?_, ?_, ?_, ?_, ?_⟩
  · rw [integerRangeBegin, if_neg hs, if_pos (by rw [show first + n * step - first = n * step by ring, Int.mul_tmod_left]), storeIn_ok h2.1 h2.2, Res.ok_bind,
      storeIn_ok h1.1 h1.2]
  · intro i hi'
    simp only [steps, List.length_map, List.length_range] at hi' ⊢
    rw [integerRange, Res.ok.injEq, decide_eq_decide, Int.add_right_inj, Int.mul_eq_mul_right_iff hs]
    omega
  · intro i hi'
    simp only [steps, List.length_map, List.length_range, List.getElem_map, List.getElem_range] at hi' ⊢
    rw [integerRange]
    have a := hin i (by omega)
    have b := hin (i + 1) (by omega)
    refine storeIn_ok a.1 (Int.le_trans ?_ (Int.le_max_right _ _))
    push_cast at b
    nlinarith
  · intro i hi'
    simp only [steps, List.length_map, List.length_range] at hi'
    have b := hin (i + 1) (by omega)
    have e : first + ((i + 1 : Nat) : Int) * step = first + i * step + step := by push_cast; ring
    rw [e] at b ⊢
    exact storeIn_ok b.1 b.2
  · intro i j hi' hj
    rw [integerRange, Res.ok.injEq, decide_eq_decide, Int.add_right_inj, Int.mul_eq_mul_right_iff hs]
    omega

/-- Upwards it is a random access range of them. The part that is missing is the order of the iterators of a range downwards, see
`C50_integer_range_downwards_violated`. -/
theorem C50_integer_range_random_access_partial {lo hi stepMin first last step : Int} (n : Nat) (hs : 0 < step) (hmin : stepMin ≤ step)
    (hlast : last = first + n * step) (h1 : lo ≤ first ∧ first ≤ hi) (h2 : lo ≤ last ∧ last ≤ hi) :
    integerRangeBegin lo hi first last step = .ok first ∧
    Indexed (integerRange lo hi stepMin step last) (fun i => first + i * step) (steps first step n) := by
  obtain ⟨hb, hp⟩ := C50_integer_range n (by omega) hmin hlast h1 h2
  subst hlast
  have hin : ∀ i : Nat, i ≤ n → lo ≤ first + i * step ∧ first + i * step ≤ hi := by
    intro i hi'
    have h0 : (0 : Int) ≤ i := by omega
    have h3 : (i : Int) ≤ n := by omega
    constructor <;> nlinarith
  refine ⟨hb, hp, ?_, ?_, ?_⟩
  · intro i j hi' hj
    simp only [steps, List.length_map, List.length_range] at hi' hj
    rw [integerRange]
    dsimp only
    have e : first + i * step + ((j : Int) - i) * step = first + j * step := by ring
    rw [e]
    exact storeIn_ok (hin j hj).1 (hin j hj).2
  · intro i j hi' hj
    rw [integerRange]
    dsimp only
    rw [if_neg (by omega), show first + i * step - (first + j * step) = ((i : Int) - j) * step by ring, Int.mul_tdiv_cancel _ (by omega)]
  · intro i j hi' hj
    rw [integerRange]
    dsimp only
    rw [Res.ok.injEq]
    rcases Nat.lt_trichotomy i j with h | h | h
    · rw [Nat.compare_eq_lt.2 h, compare_lt_iff_lt]; have : (i : Int) < j := by omega
      nlinarith
    · subst h; rw [compare_eq_iff_eq.2 rfl, compare_eq_iff_eq.2 rfl]
    · rw [Nat.compare_eq_gt.2 h, compare_gt_iff_gt]; have : (j : Int) < i := by omega
      nlinarith

/-- The constructor accepts exactly what the range can visit: a step by which the distance can be divided (it checks the step only by
dividing by it), and bounds in the range of the type. Anything else violates an assertion. -/
theorem C50_integer_range_accepts {lo hi first last step : Int} : integerRangeBegin lo hi first last step ≠ .ub ↔
    step ≠ 0 ∧ (∃ k : Int, last = first + k * step) ∧ lo ≤ first ∧ first ≤ hi ∧ lo ≤ last ∧ last ≤ hi := by
  have hdvd : (last - first).tmod step = 0 ↔ ∃ k : Int, last = first + k * step := by
    rw [← Int.dvd_iff_tmod_eq_zero]
    constructor
    · rintro ⟨k, hk⟩; exact ⟨k, by rw [Int.mul_comm k, ← hk]; ring⟩
    · rintro ⟨k, hk⟩; exact ⟨k, by rw [hk]; ring⟩
  rw [← hdvd, integerRangeBegin]
  by_cases hs : step = 0
  · simp [hs]
  · rw [if_neg hs]
    by_cases hm : (last - first).tmod step = 0
    · rw [if_pos hm]
      simp only [storeIn]
      by_cases h2 : lo ≤ last ∧ last ≤ hi
      · by_cases h1 : lo ≤ first ∧ first ≤ hi
        · simp [hs, hm, h1, h2]
        · rw [if_pos h2, if_neg h1]; simp only [Res.ok_bind, ne_eq, not_true_eq_false, false_iff]; tauto
      · rw [if_neg h2]; simp only [Res.ub_bind, ne_eq, not_true_eq_false, false_iff]; tauto
    · simp [hm]

/-- The iterators of a range downwards are ordered by their values, so that the end compares less than the begin: `integer_range` from 5 to 3, values of
a type with the range [0, 10], with the step -1 visits 5 and 4, its size is 2, and `begin < end` is false. -/
theorem C50_integer_range_downwards_violated :
    let r := integerRange 0 10 (-1) (-1) 3
    integerRangeBegin 0 10 5 3 (-1) = .ok 5 ∧ forEach r.toRng 5 5 = some (.ok [5, 4]) ∧ r.sub 3 5 = .ok 2 ∧ r.add 5 2 = .ok 3 ∧ r.cmp 5 3 = .ok .gt := by
  decide +kernel

/-- An inclusive range ends after `last`. -/
theorem C50_inclusive_integer_range {lo hi stepMin stepMax first last step : Int} (n : Nat) (hs : 0 < step) (hmin : stepMin ≤ step) (hmax : step ≤ stepMax)
    (hlast : last = first + n * step) (h1 : lo ≤ first) (h2 : last ≤ hi) :
    integerRangeBegin lo (hi + stepMax) first (last + step) step = .ok first ∧
    Indexed (inclusiveIntegerRange lo hi stepMin stepMax step last) (fun i => first + i * step) (steps first step (n + 1)) ∧
    (steps first step (n + 1)).getLast? = some last := by
  have h0 : (0 : Int) ≤ n * step := by positivity
  have := C50_integer_range_random_access_partial (lo := lo) (hi := hi + stepMax) (first := first) (last := last + step) (n + 1) hs hmin
    (by rw [hlast]; push_cast; ring) ⟨h1, by omega⟩ ⟨by omega, by omega⟩
  refine ⟨this.1, this.2, ?_⟩
  rw [steps, List.range_succ, List.map_append, List.map_singleton, List.getLast?_concat, hlast]

/-- What an enumeration range visits are the enumerators (the values `construct` makes of the integers) from the first to the last
(integer_range.cpp:168-174): a `transform` of an inclusive range. -/
theorem C50_enum_range {ε : Type} (construct : Int → ε) {lo hi first last : Int} (n : Nat) (hlast : last = first + n) (h1 : lo ≤ first) (h2 : last ≤ hi) :
    Indexed (transform construct (inclusiveIntegerRange lo hi 1 1 1 last)) (fun i => first + i) ((steps first 1 (n + 1)).map construct) := by
  have := (C50_inclusive_integer_range (lo := lo) (hi := hi) (stepMin := 1) (stepMax := 1) (first := first) (last := last) (step := 1) n (by omega) (by omega) (by omega)
    (by omega) h1 h2).2.1
  simp only [Int.mul_one] at this
  exact C50_transform_random_access this construct

example : steps 2 2 3 = [2, 4, 6] := by decide +kernel

example : forEach (integerRange 2 8 2 2 8).toRng 5 2 = some (.ok [2, 4, 6]) := by decide +kernel

example : forEach (inclusiveIntegerRange 0 7 1 1 1 7).toRng 9 4 = some (.ok [4, 5, 6, 7]) := by decide +kernel

end Verif.Views
