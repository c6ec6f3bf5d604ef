import Verif.Views.Adapt
import Mathlib.Tactic.Ring
import Mathlib.Data.List.Forall2

/-!
# Splitting a range into a number of batches (property C54)

Models /repo/source/containers/batched.cpp.
-/

namespace Verif.Views

open Verif Algo

variable {σ ρ : Type}

/-- `elements_prior_to_batch` (batched.cpp:78-84). -/
def elementsPrior (total batches batch : Nat) : Nat := total / batches * batch + min (total % batches) batch

/-- `batch_iterator` (batched.cpp:31-88) for a range `r` from `first` with `total` elements; `maxBatches` is the greatest number of batches of the
type of the number of batches, so that the type of the batch index goes from 0 to it. -/
def batched (r : RA σ ρ) (first : σ) (total batches maxBatches : Nat) : RA Nat (σ × σ) where
  atEnd b := .ok (decide (b = batches))
  deref b := do
    let s ← r.add first (elementsPrior total batches b)
    if b + 1 ≤ maxBatches then .ok (s, ← r.add first (elementsPrior total batches (b + 1))) else .ub
  next b := if b + 1 ≤ maxBatches then .ok (b + 1) else .ub
  eq a b := .ok (decide (a = b))
  add b n := if 0 ≤ (b : Int) + n ∧ (b : Int) + n ≤ maxBatches then .ok (b + n).toNat else .ub
  sub a b := .ok ((a : Int) - b)
  cmp a b := .ok (compare a b)

/-- A number of consecutive batches of a sequence, the lengths of which differ by at most one, longer ones first. -/
structure IsBatches (xs : List ρ) (n : Nat) (batches : List (List ρ)) : Prop where
  length : batches.length = n
  flatten : batches.flatten = xs
  even : ∃ k, (∀ b ∈ batches, b.length = k ∨ b.length = k + 1) ∧ batches.IsChain fun b c => c.length ≤ b.length

theorem elementsPrior_succ (t n b : Nat) : elementsPrior t n (b + 1) = elementsPrior t n b + (t / n + if b < t % n then 1 else 0) := by
  rw [elementsPrior, elementsPrior, Nat.mul_add, Nat.mul_one]
  split <;> omega

theorem elementsPrior_zero (t n : Nat) : elementsPrior t n 0 = 0 := by simp [elementsPrior]

theorem elementsPrior_all (t : Nat) {n : Nat} (hn : 0 < n) : elementsPrior t n n = t := by
  rw [elementsPrior, Nat.min_eq_left (Nat.le_of_lt (Nat.mod_lt _ hn)), Nat.mul_comm, Nat.div_add_mod]

theorem elementsPrior_mono (t n : Nat) {a b : Nat} (h : a ≤ b) : elementsPrior t n a ≤ elementsPrior t n b := by
  induction b with
  | zero => rw [show a = 0 by omega]
  | succ b ih =>
    rcases Nat.lt_or_ge a (b + 1) with hlt | hge
    · have := ih (by omega)
      rw [elementsPrior_succ]
      exact Nat.le_trans this (Nat.le_add_right _ _)
    · rw [show a = b + 1 by omega]

/-- The batch with an index. -/
def batchOf (xs : List ρ) (n b : Nat) : List ρ :=
  (xs.drop (elementsPrior xs.length n b)).take (elementsPrior xs.length n (b + 1) - elementsPrior xs.length n b)

theorem length_batchOf (xs : List ρ) {n b : Nat} (h : b < n) : (batchOf xs n b).length = xs.length / n + if b < xs.length % n then 1 else 0 := by
  have h1 := elementsPrior_mono xs.length n (a := b + 1) (b := n) (by omega)
  rw [elementsPrior_all _ (by omega)] at h1
  rw [batchOf, List.length_take, List.length_drop]
  rw [elementsPrior_succ] at h1 ⊢
  generalize (xs.length / n + if b < xs.length % n then 1 else 0) = w at *
  omega

theorem flatten_batches (xs : List ρ) (n : Nat) : ∀ k, ((List.range k).map (batchOf xs n)).flatten = xs.take (elementsPrior xs.length n k)
  | 0 => by simp [elementsPrior_zero]
  | k + 1 => by
    have h1 := elementsPrior_mono xs.length n (a := k) (b := k + 1) (by omega)
    rw [List.range_succ, List.map_append, List.flatten_append, flatten_batches xs n k, List.map_singleton, List.flatten_singleton, batchOf]
    rw [← List.take_add, Nat.add_sub_cancel' h1]

/-- Batching gives exactly the requested number of batches, as subranges; they are consecutive, have all elements of the range in order, and their
lengths differ by at most one with the longer ones first. -/
theorem C54_batched {r : RA σ ρ} {pos : Nat → σ} {xs : List ρ} (h : Indexed r pos xs) {n maxBatches : Nat} (hn : 0 < n) (hmax : n ≤ maxBatches) :
    ∃ parts batches, Indexed (batched r (pos 0) xs.length n maxBatches) (fun b => b) parts ∧ IsBatches xs n batches ∧
      List.Forall₂ (fun q c => Visits (subrange r.toFwd q.2).toRng q.1 c) parts batches := by
  have hle : ∀ b, b ≤ n → elementsPrior xs.length n b ≤ xs.length := by
    intro b hb
    have := elementsPrior_mono xs.length n hb
    rwa [elementsPrior_all _ hn] at this
  have hadd : ∀ b, b ≤ n → r.add (pos 0) (elementsPrior xs.length n b) = .ok (pos (elementsPrior xs.length n b)) := by
    intro b hb
    have := h.add 0 (elementsPrior xs.length n b) (by omega) (hle b hb)
    simpa using this
  refine ⟨(List.range n).map fun b => (pos (elementsPrior xs.length n b), pos (elementsPrior xs.length n (b + 1))), (List.range n).map (batchOf xs n),
    ⟨⟨?_, ?_, ?_, ?_⟩, ?_, ?_, ?_⟩, ⟨by simp, ?_, xs.length / n, ?_, ?_⟩, ?_⟩
  · intro b hb; simp [batched]
  · intro b hb
    simp only [List.length_map, List.length_range] at hb
    simp only [batched, List.getElem_map, List.getElem_range]
    rw [hadd b (by omega), Res.ok_bind, if_pos (by omega), hadd (b + 1) (by omega), Res.ok_bind]
  · intro b hb
    simp only [List.length_map, List.length_range] at hb
    simp only [batched]
    rw [if_pos (by omega)]
  · intro a b _ _; rfl
  · intro a b ha hb
    simp only [List.length_map, List.length_range] at ha hb
    simp only [batched]
    rw [if_pos (by omega), Res.ok.injEq]
    omega
  · intro a b _ _; rfl
  · intro a b _ _; rfl
  · rw [flatten_batches, elementsPrior_all _ hn, List.take_length]
  · intro b hb
    simp only [List.mem_map, List.mem_range] at hb
    obtain ⟨i, hi, rfl⟩ := hb
    rw [length_batchOf xs hi]
    split <;> omega
  · rw [List.isChain_iff_getElem]
    intro i hi
    simp only [List.length_map, List.length_range] at hi
    simp only [List.getElem_map, List.getElem_range]
    rw [length_batchOf xs hi, length_batchOf xs (by omega)]
    split <;> split <;> omega
  · rw [List.forall₂_map_left_iff, List.forall₂_map_right_iff, List.forall₂_same]
    intro b hb
    rw [List.mem_range] at hb
    have := (h.toPositions.subrange (i := elementsPrior xs.length n b) (j := elementsPrior xs.length n (b + 1)) (elementsPrior_mono _ _ (by omega))
      (hle _ (by omega))).visits
    exact this

example : forEach (batched (memRange exMem 0 5) 0 5 3 9).toRng 9 0 = some (.ok [(0, 2), (2, 4), (4, 5)]) := by decide +kernel

example : forEach (batched (memRange exMem 0 2) 0 2 4 4).toRng 9 0 = some (.ok [(0, 1), (1, 2), (2, 2), (2, 2)]) := by decide +kernel

end Verif.Views
