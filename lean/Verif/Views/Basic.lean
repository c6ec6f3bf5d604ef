import Verif.Base.Res
import Verif.Algo.Mem
import Mathlib.Tactic.ByContra

/-!
# Ranges and their iterators

A range is given by what its iterators do: comparing with the end, dereferencing and advancing. Each of them can be undefined or can
throw. A view is a function from ranges to ranges, so views of views are covered.
-/

namespace Verif.Views

variable {σ ρ : Type}

/-- The operations of an iterator type `σ` on elements `ρ`, with the sentinel. -/
structure Rng (σ ρ : Type) where
  atEnd : σ → Res Bool
  deref : σ → Res ρ
  next : σ → Res σ

/-- From the iterator on the range has the elements `xs`: for each of them the iterator is not at the end, can be dereferenced to
give it and advanced to the next one. -/
def Visits (r : Rng σ ρ) : σ → List ρ → Prop
  | s, [] => r.atEnd s = .ok true
  | s, x :: xs => r.atEnd s = .ok false ∧ r.deref s = .ok x ∧ ∃ s', r.next s = .ok s' ∧ Visits r s' xs

/-- `for (auto && x : range)`: the elements that the loop sees. `none` if it has not ended after that many steps. -/
def forEach (r : Rng σ ρ) : Nat → σ → Option (Res (List ρ))
  | 0, _ => none
  | f + 1, s =>
    match r.atEnd s with
    | .ub => some .ub
    | .exn => some .exn
    | .ok true => some (.ok [])
    | .ok false =>
      match r.deref s with
      | .ub => some .ub
      | .exn => some .exn
      | .ok x =>
        match r.next s with
        | .ub => some .ub
        | .exn => some .exn
        | .ok s' => (forEach r f s').map fun rest => rest.bind fun xs => .ok (x :: xs)

theorem Visits.forEach {r : Rng σ ρ} : ∀ {xs : List ρ} {s : σ} {f : Nat}, Visits r s xs → xs.length < f → forEach r f s = some (.ok xs)
  | _, _, 0, _, hf => by omega
  | [], s, f + 1, h, _ => by
    rw [Visits] at h
    rw [Views.forEach, h]
  | x :: xs, s, f + 1, h, hf => by
    obtain ⟨h1, h2, s', h3, h4⟩ := h
    have ih := h4.forEach (f := f) (by simpa using hf)
    simp only [Views.forEach, h1, h2, h3, ih, Option.map_some]
    rfl

/-- The elements are determined by the range. -/
theorem Visits.unique {r : Rng σ ρ} : ∀ {xs ys : List ρ} {s : σ}, Visits r s xs → Visits r s ys → xs = ys
  | [], [], _, _, _ => rfl
  | [], y :: ys, s, hx, hy => by rw [Visits] at hx; have := hy.1; rw [hx] at this; cases this
  | x :: xs, [], s, hx, hy => by rw [Visits] at hy; have := hx.1; rw [hy] at this; cases this
  | x :: xs, y :: ys, s, hx, hy => by
    obtain ⟨-, h2, s', h3, h4⟩ := hx
    obtain ⟨-, q2, s'', q3, q4⟩ := hy
    rw [h2] at q2
    rw [h3] at q3
    cases q2
    cases q3
    rw [h4.unique q4]

/-- A range that throws after some elements. -/
def Throws (r : Rng σ ρ) : σ → List ρ → Prop
  | s, [] => r.atEnd s = .exn
  | s, x :: xs => r.atEnd s = .ok false ∧ r.deref s = .ok x ∧ ∃ s', r.next s = .ok s' ∧ Throws r s' xs

theorem Throws.forEach {r : Rng σ ρ} : ∀ {xs : List ρ} {s : σ} {f : Nat}, Throws r s xs → xs.length < f → Views.forEach r f s = some .exn
  | _, _, 0, _, hf => by omega
  | [], s, f + 1, h, _ => by
    rw [Throws] at h
    rw [Views.forEach, h]
  | x :: xs, s, f + 1, h, hf => by
    obtain ⟨h1, h2, s', h3, h4⟩ := h
    have ih := h4.forEach (f := f) (by simpa using hf)
    simp only [Views.forEach, h1, h2, h3, ih, Option.map_some]
    rfl

/-- A range: its iterators, `begin()` and, for a range with `size()`, the size. -/
structure Range (σ ρ : Type) where
  ops : Rng σ ρ
  first : σ
  size? : Option Nat

/-- The range consists of these elements, and says so if it is asked for its size. -/
def Range.Is (R : Range σ ρ) (xs : List ρ) : Prop := Visits R.ops R.first xs ∧ ∀ n, R.size? = some n → n = xs.length

/-! ## Forward and random access iterators -/

/-- Forward iterators can be compared with each other. -/
structure Fwd (σ ρ : Type) extends Rng σ ρ where
  /-- `it == it` -/
  eq : σ → σ → Res Bool

/-- The operations of a random access iterator. -/
structure RA (σ ρ : Type) extends Fwd σ ρ where
  /-- `it + offset` -/
  add : σ → Int → Res σ
  /-- `it - it` -/
  sub : σ → σ → Res Int
  /-- `it <=> it` -/
  cmp : σ → σ → Res Ordering

/-- The iterators of the range are `pos 0`, ..., `pos n`, with all operations as for the positions in `xs`. -/
structure Positions (r : Fwd σ ρ) (pos : Nat → σ) (xs : List ρ) : Prop where
  atEnd : ∀ i, i ≤ xs.length → r.atEnd (pos i) = .ok (decide (i = xs.length))
  deref : ∀ i (h : i < xs.length), r.deref (pos i) = .ok xs[i]
  next : ∀ i, i < xs.length → r.next (pos i) = .ok (pos (i + 1))
  eq : ∀ i j, i ≤ xs.length → j ≤ xs.length → r.eq (pos i) (pos j) = .ok (decide (i = j))

/-- The same with the operations of random access iterators. -/
structure Indexed (r : RA σ ρ) (pos : Nat → σ) (xs : List ρ) : Prop extends Positions r.toFwd pos xs where
  add : ∀ i j, i ≤ xs.length → j ≤ xs.length → r.add (pos i) ((j : Int) - i) = .ok (pos j)
  sub : ∀ i j, i ≤ xs.length → j ≤ xs.length → r.sub (pos i) (pos j) = .ok ((i : Int) - j)
  cmp : ∀ i j, i ≤ xs.length → j ≤ xs.length → r.cmp (pos i) (pos j) = .ok (compare i j)

theorem Positions.visits_from {r : Fwd σ ρ} {pos : Nat → σ} {xs : List ρ} (h : Positions r pos xs) : ∀ k i, i + k = xs.length →
    Visits r.toRng (pos i) (xs.drop i)
  | 0, i, hi => by
    rw [List.drop_eq_nil_of_le (by omega)]
    rw [Visits, h.atEnd i (by omega), decide_eq_true (by omega)]
  | k + 1, i, hi => by
    rw [List.drop_eq_getElem_cons (by omega)]
    refine ⟨?_, h.deref i (by omega), _, h.next i (by omega), h.visits_from k (i + 1) (by omega)⟩
    rw [h.atEnd i (by omega)]
    simp only [Res.ok.injEq, decide_eq_false_iff_not]; omega

theorem Positions.visits {r : Fwd σ ρ} {pos : Nat → σ} {xs : List ρ} (h : Positions r pos xs) : Visits r.toRng (pos 0) xs := by
  have := h.visits_from xs.length 0 (by omega)
  rwa [List.drop_zero] at this

/-! ## Parts of ranges -/

/-- `subrange(first, last)` (`subrange.cpp` 64-148): the iterators are those of the range, the end is `last`. -/
def subrange (r : Fwd σ ρ) (last : σ) : Fwd σ ρ := { r with atEnd := fun s => r.eq s last }

theorem Positions.subrange {r : Fwd σ ρ} {pos : Nat → σ} {xs : List ρ} (h : Positions r pos xs) {i j : Nat} (hij : i ≤ j) (hj : j ≤ xs.length) :
    Positions (subrange r (pos j)) (fun k => pos (i + k)) ((xs.drop i).take (j - i)) := by
  have hlen : ((xs.drop i).take (j - i)).length = j - i := by rw [List.length_take, List.length_drop]; omega
  constructor
  · intro k hk
    rw [hlen] at hk ⊢
    simp only [Views.subrange, h.eq (i + k) j (by omega) hj, Res.ok.injEq, decide_eq_decide]; omega
  · intro k hk
    rw [hlen] at hk
    simp only [Views.subrange, h.deref (i + k) (by omega), List.getElem_take, List.getElem_drop]
  · intro k hk
    rw [hlen] at hk
    simp only [Views.subrange, h.next (i + k) (by omega), Nat.add_assoc]
  · intro k l hk hl
    rw [hlen] at hk hl
    simp only [Views.subrange, h.eq (i + k) (i + l) (by omega) (by omega), Res.ok.injEq, decide_eq_decide]; omega

/-! ## Ranges in memory -/

open Algo

variable {α : Type}

/-- No result is undefined behaviour. -/
def ofOption {β : Type} : Option β → Res β
  | some a => .ok a
  | none => .ub

/-- The elements at the addresses from `first` to `last`, with pointers as iterators (`contiguous_iterator.cpp`). Leaving the range is
undefined. -/
def memRange (m : Mem α) (first last : Nat) : RA Nat α where
  atEnd it := .ok (it == last)
  deref it := if first ≤ it ∧ it < last then ofOption (m it) else .ub
  next it := if first ≤ it ∧ it < last then .ok (it + 1) else .ub
  add it d := if (first : Int) ≤ it + d ∧ (it : Int) + d ≤ last then .ok (it + d).toNat else .ub
  sub a b := .ok ((a : Int) - b)
  cmp a b := .ok (compare a b)
  eq a b := .ok (a == b)

theorem compare_add_left (a i j : Nat) : compare (a + i) (a + j) = compare i j := by
  rw [Nat.compare_eq_ite_lt, Nat.compare_eq_ite_lt]
  simp only [Nat.add_lt_add_iff_left]

theorem memRange_indexed {m : Mem α} {first : Nat} {xs : List α} (h : m.Seg first xs) :
    Indexed (memRange m first (first + xs.length)) (fun i => first + i) xs where
  atEnd i hi := by
    simp only [memRange, Res.ok.injEq, Nat.add_left_cancel_iff, beq_eq_decide]
  deref i hi := by
    simp only [memRange]; rw [if_pos (by omega), h i hi]; rfl
  next i hi := by simp only [memRange]; rw [if_pos (by omega)]; rfl
  add i j hi hj := by
    simp only [memRange]; rw [if_pos (by omega)]
    congr 1; omega
  sub i j hi hj := by simp only [memRange, Res.ok.injEq]; omega
  cmp i j hi hj := by
    simp only [memRange, Res.ok.injEq]
    exact compare_add_left first i j
  eq i j hi hj := by simp only [memRange, Res.ok.injEq, beq_eq_decide, Nat.add_left_cancel_iff]

end Verif.Views
