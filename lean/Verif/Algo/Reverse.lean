import Verif.Algo.Mem

/-!
# Reversing a range in place (property C54)

Models /repo/source/containers/algorithms/reverse.cpp.
-/

namespace Verif.Algo

open Mem

variable {α : Type}

/-- The loop for random access iterators (reverse.cpp:31-35); `last` is the iterator to the last element that is not in its place. -/
def reverseLoop (m : Mem α) : Nat → Nat → Nat → Option (Mem α)
  | 0, _, _ => none
  | f + 1, first, last =>
    if first < last then do
      let m ← m.swapAt first last
      reverseLoop m f (first + 1) (last - 1)
    else some m

/-- `reverse` for random access iterators (reverse.cpp:22-35). The number of iterations is bounded by the number of elements. -/
def reverseRandomAccess (m : Mem α) (first last : Nat) : Option (Mem α) :=
  if first = last then some m else reverseLoop m (last - first) first (last - 1)

/-- `reverse` for bidirectional iterators (reverse.cpp:36-45). -/
def reverseBidirectional (m : Mem α) : Nat → Nat → Nat → Option (Mem α)
  | 0, _, _ => none
  | f + 1, first, last =>
    if first ≠ last then
      if first = last - 1 then some m else do
      let m ← m.swapAt first (last - 1)
      reverseBidirectional m f (first + 1) (last - 1)
    else some m

/-- Swapping the ends of a sequence. -/
theorem swap_ends {m : Mem α} {b : Nat} {x y : α} {xs : List α} (h : m.Seg b (x :: (xs ++ [y]))) :
    ∃ m', m.swapAt b (b + xs.length + 1) = some m' ∧ m' b = some y ∧ m'.Seg (b + 1) xs ∧ m' (b + 1 + xs.length) = some x ∧
      m.SameOff m' (fun a => b ≤ a ∧ a < b + xs.length + 2) := by
  obtain ⟨h1, h2⟩ := seg_cons.1 h
  obtain ⟨h2, h3⟩ := seg_append.1 h2
  obtain ⟨h3, -⟩ := seg_cons.1 h3
  rw [show b + 1 + xs.length = b + xs.length + 1 by omega] at h3
  refine ⟨upd (upd m b (some y)) (b + xs.length + 1) (some x), by simp only [swapAt, h1, h3], ?_, ?_, ?_, ?_⟩
  · rw [upd_other _ _ (by omega), upd_same]
  · intro i hi
    rw [upd_other _ _ (by omega), upd_other _ _ (by omega)]
    exact h2 i hi
  · rw [show b + 1 + xs.length = b + xs.length + 1 by omega, upd_same]
  · intro a ha
    rw [upd_other _ _ (by omega), upd_other _ _ (by omega)]

theorem reversed_of_ends {m m' : Mem α} {b : Nat} {x y : α} {xs : List α} (hy : m b = some y) (hx : m (b + 1 + xs.length) = some x)
    (hm : m'.Seg (b + 1) xs.reverse) (hs : m.SameOff m' (fun a => b + 1 ≤ a ∧ a < b + 1 + xs.length)) : m'.Seg b (x :: (xs ++ [y])).reverse := by
  rw [List.reverse_cons, List.reverse_append, List.reverse_singleton, List.singleton_append, List.cons_append, seg_cons, seg_append, seg_cons,
    List.length_reverse]
  refine ⟨?_, hm, ?_, seg_nil _ _⟩
  · rw [hs b (by omega), hy]
  · rw [hs _ (by omega), hx]

/-- A list is empty, has one element, or has ends. -/
theorem ends_cases (xs : List α) : xs = [] ∨ (∃ x, xs = [x]) ∨ ∃ x ys y, xs = x :: (ys ++ [y]) := by
  cases xs with
  | nil => exact .inl rfl
  | cons x xs =>
    rcases List.eq_nil_or_concat xs with rfl | ⟨ys, y, rfl⟩
    · exact .inr (.inl ⟨x, rfl⟩)
    · exact .inr (.inr ⟨x, ys, y, by rw [List.concat_eq_append]⟩)

theorem reverseLoop_spec : ∀ (n : Nat) {xs : List α} {m : Mem α} {b f : Nat}, xs.length ≤ n → xs.length ≤ f → xs ≠ [] ∨ 1 ≤ b ∧ 1 ≤ f → m.Seg b xs →
    ∃ m', reverseLoop m f b (b + xs.length - 1) = some m' ∧ m'.Seg b xs.reverse ∧ m.SameOff m' (fun a => b ≤ a ∧ a < b + xs.length)
  | n, xs, m, b, f, hn, hf, hb, h => by
    rcases ends_cases xs with rfl | ⟨x, rfl⟩ | ⟨x, ys, y, rfl⟩
    · obtain ⟨f, rfl⟩ : ∃ g, f = g + 1 := ⟨f - 1, by simp at hb; omega⟩
      exact ⟨m, by rw [reverseLoop, if_neg (by simp)], by simpa using h, fun _ _ => rfl⟩
    · obtain ⟨f, rfl⟩ : ∃ g, f = g + 1 := ⟨f - 1, by simp at hf; omega⟩
      exact ⟨m, by rw [reverseLoop, if_neg (by simp)], by simpa using h, fun _ _ => rfl⟩
    · simp only [List.length_cons, List.length_append, List.length_nil, Nat.zero_add] at hn hf
      obtain ⟨n, rfl⟩ : ∃ k, n = k + 1 := ⟨n - 1, by omega⟩
      obtain ⟨f, rfl⟩ : ∃ g, f = g + 1 := ⟨f - 1, by omega⟩
      obtain ⟨m1, e1, hy, hs1, hx, f1⟩ := swap_ends h
      obtain ⟨m2, e2, hs2, f2⟩ := reverseLoop_spec n (f := f) (b := b + 1) (by omega) (by omega) (.inr (by omega)) hs1
      refine ⟨m2, ?_, reversed_of_ends hy hx hs2 f2, fun a ha => ?_⟩
      · simp only [List.length_cons, List.length_append, List.length_nil, Nat.zero_add]
        rw [show b + (ys.length + 1 + 1) - 1 = b + ys.length + 1 by omega, reverseLoop, if_pos (by omega), e1, Option.bind_eq_bind, Option.bind_some,
          show b + ys.length + 1 - 1 = b + 1 + ys.length - 1 by omega, e2]
      · simp only [List.length_cons, List.length_append, List.length_nil, Nat.zero_add] at ha
        rw [f2 a (by omega), f1 a (by omega)]

theorem reverseBidirectional_spec : ∀ (n : Nat) {xs : List α} {m : Mem α} {b f : Nat}, xs.length ≤ n → xs.length < f → m.Seg b xs →
    ∃ m', reverseBidirectional m f b (b + xs.length) = some m' ∧ m'.Seg b xs.reverse ∧ m.SameOff m' (fun a => b ≤ a ∧ a < b + xs.length)
  | n, xs, m, b, 0, hn, hf, h => by omega
  | n, xs, m, b, f + 1, hn, hf, h => by
    rcases ends_cases xs with rfl | ⟨x, rfl⟩ | ⟨x, ys, y, rfl⟩
    · exact ⟨m, by rw [reverseBidirectional, if_neg (by simp)], by simpa using h, fun _ _ => rfl⟩
    · exact ⟨m, by rw [reverseBidirectional, if_pos (by simp), if_pos (by simp)], by simpa using h, fun _ _ => rfl⟩
    · simp only [List.length_cons, List.length_append, List.length_nil, Nat.zero_add] at hn hf
      obtain ⟨n, rfl⟩ : ∃ k, n = k + 1 := ⟨n - 1, by omega⟩
      obtain ⟨m1, e1, hy, hs1, hx, f1⟩ := swap_ends h
      obtain ⟨m2, e2, hs2, f2⟩ := reverseBidirectional_spec n (f := f) (b := b + 1) (by omega) (by omega) hs1
      refine ⟨m2, ?_, reversed_of_ends hy hx hs2 f2, fun a ha => ?_⟩
      · simp only [List.length_cons, List.length_append, List.length_nil, Nat.zero_add]
        rw [reverseBidirectional, if_pos (by omega), if_neg (by omega), show b + (ys.length + 1 + 1) - 1 = b + ys.length + 1 by omega, e1,
          Option.bind_eq_bind, Option.bind_some, show b + ys.length + 1 = b + 1 + ys.length by omega, e2]
      · simp only [List.length_cons, List.length_append, List.length_nil, Nat.zero_add] at ha
        rw [f2 a (by omega), f1 a (by omega)]

/-- `reverse` reverses the range and nothing else changes. -/
theorem C54_reverse_random_access {m : Mem α} {first : Nat} {xs : List α} (h : m.Seg first xs) :
    ∃ m', reverseRandomAccess m first (first + xs.length) = some m' ∧ m'.Seg first xs.reverse ∧
      m.SameOff m' (fun a => first ≤ a ∧ a < first + xs.length) := by
  rw [reverseRandomAccess]
  split
  · have : xs = [] := List.eq_nil_of_length_eq_zero (by omega)
    subst this
    exact ⟨m, rfl, h, fun _ _ => rfl⟩
  · rw [show first + xs.length - first = xs.length by omega]
    exact reverseLoop_spec _ (Nat.le_refl _) (Nat.le_refl _) (.inl fun e => by subst e; simp at *) h

/-- The same for bidirectional iterators. -/
theorem C54_reverse_bidirectional {m : Mem α} {first : Nat} {xs : List α} (h : m.Seg first xs) {f : Nat} (hf : xs.length < f) :
    ∃ m', reverseBidirectional m f first (first + xs.length) = some m' ∧ m'.Seg first xs.reverse ∧
      m.SameOff m' (fun a => first ≤ a ∧ a < first + xs.length) :=
  reverseBidirectional_spec _ (Nat.le_refl _) hf h

example : (reverseRandomAccess (fun a => [7, 1, 2, 3, 4, 8][a]?) 1 5).map (fun m => (List.range 6).map m) =
    some [some 7, some 4, some 3, some 2, some 1, some 8] := by decide +kernel

example : (reverseBidirectional (fun a => [1, 2, 3][a]?) 4 0 3).map (fun m => (List.range 3).map m) = some [some 3, some 2, some 1] := by decide +kernel

end Verif.Algo
