import Verif.Views.Adapt
import Mathlib.Data.List.Forall2

/-!
# Zipped ranges (C50)

All zipped ranges have the same iterator type and element type here, the C++ code has a tuple instead of the list.
-/

namespace Verif.Views

variable {σ ρ β γ : Type}

/-- Doing something with all iterators, in order. -/
def mapRes (f : β → Res γ) : List β → Res (List γ)
  | [] => .ok []
  | b :: bs => do .ok ((← f b) :: (← mapRes f bs))

/-- `(... and (it != last))` -/
def allNe : List (Rng σ ρ × σ) → Res Bool
  | [] => .ok true
  | b :: bs => do if ← b.1.atEnd b.2 then .ok false else allNe bs

/-- `(... and (it == last))` -/
def allEq : List (Rng σ ρ × σ) → Res Bool
  | [] => .ok true
  | b :: bs => do if ← b.1.atEnd b.2 then allEq bs else .ok false

/-- `(... or (it == last))` -/
def anyEq : List (Rng σ ρ × σ) → Res Bool
  | [] => .ok false
  | b :: bs => do if ← b.1.atEnd b.2 then .ok true else anyEq bs

/-- `zip_iterator::operator*` (`algorithms/zip.cpp` 65-68). -/
def zipDeref (s : List (Rng σ ρ × σ)) : Res (List ρ) := mapRes (fun b => b.1.deref b.2) s

/-- `zip_iterator::operator+` by one (`algorithms/zip.cpp` 69-76). -/
def zipNext (s : List (Rng σ ρ × σ)) : Res (List (Rng σ ρ × σ)) :=
  if s = [] then .ub else mapRes (fun b => do .ok (b.1, ← b.1.next b.2)) s

/-- `zip` of ranges of which one has no size: `zip_sentinel` (`algorithms/zip.cpp` 91-110). -/
def zipChecked : Rng (List (Rng σ ρ × σ)) (List ρ) where
  atEnd s := do
    if ← allNe s then .ok false else
    if ← allEq s then .ok true else .exn
  deref := zipDeref
  next := zipNext

/-- `zip_smallest` of ranges of which one has no size: `zip_smallest_sentinel` (`algorithms/zip.cpp` 112-125). -/
def zipSmallest : Rng (List (Rng σ ρ × σ)) (List ρ) where
  atEnd := anyEq
  deref := zipDeref
  next := zipNext

/-- `zip` and `zip_smallest` of ranges that all have a size, of any kind: the end is a `zip_iterator` of the ends
(`algorithms/zip.cpp` 169-172), equality of tuples is equality of all components (`tv/tuple.cpp` 144-149). -/
def zipSized : Rng (List (Rng σ ρ × σ)) (List ρ) where
  atEnd := allEq
  deref := zipDeref
  next := zipNext

/-- `all_are_equal` (`algorithms/zip.cpp` 127-133). -/
def allAreEqual : List Nat → Bool
  | [] => true
  | n :: ns => ns.all fun m => n == m

/-- `size()` (`algorithms/zip.cpp` 221-227). -/
def zipSize (Rs : List (Range σ ρ)) : Option Nat :=
  match Rs with
  | [] => some 0
  | R :: _ => R.size?

/-- `zip` (`algorithms/zip.cpp` 153-243). -/
def zip (Rs : List (Range σ ρ)) : Res (Range (List (Rng σ ρ × σ)) (List ρ)) :=
  let first := Rs.map fun R => (R.ops, R.first)
  match Rs.mapM fun R => R.size? with
  | some sizes => if !allAreEqual sizes then .exn else .ok ⟨zipSized, first, zipSize Rs⟩
  | none => .ok ⟨zipChecked, first, none⟩

/-- `zip_smallest` (`algorithms/zip.cpp` 153-165, 245-258) of ranges of which one has no size. -/
def zipSmallestUnsized (Rs : List (Range σ ρ)) : Range (List (Rng σ ρ × σ)) (List ρ) :=
  ⟨zipSmallest, Rs.map fun R => (R.ops, R.first), none⟩

/-- The smallest size, `bounded::min(sizes...)`. -/
def minSize : List Nat → Nat
  | [] => 0
  | [n] => n
  | n :: ns => min n (minSize ns)

/-- `zip_smallest` (`algorithms/zip.cpp` 153-165, 245-258) of random access ranges: the ranges are shortened with `take` first. A range
is given with its first iterator and its size. -/
def zipSmallestRA (rs : List (RA σ ρ × σ × Nat)) : Res (Range (List (Rng σ ρ × σ)) (List ρ)) := do
  let n := minSize (rs.map fun r => r.2.2)
  let taken ← mapRes (fun r => do .ok (Range.mk (← takeRA r.1 r.2.1 r.2.2 n).toRng r.2.1 (some (min r.2.2 n)))) rs
  .ok ⟨zipSized, taken.map fun R => (R.ops, R.first), zipSize taken⟩

/-! ## The specification -/

/-- The rows are the first `n` elements of each of the columns, side by side. -/
def IsRows (n : Nat) (xss : List (List ρ)) (rows : List (List ρ)) : Prop :=
  rows.length = n ∧ ∀ i (h : i < rows.length), rows[i].map some = xss.map fun xs => xs[i]?

theorem isRows_unique {n : Nat} {xss rows rows' : List (List ρ)} (h : IsRows n xss rows) (h' : IsRows n xss rows') : rows = rows' := by
  refine List.ext_getElem (by rw [h.1, h'.1]) fun i h1 h2 => ?_
  have := (h.2 i h1).trans (h'.2 i h2).symm
  exact List.map_injective_iff.2 (Option.some_injective ρ) this

/-! ## Proofs -/

/-- All the iterators have these elements. -/
def AllVisit (s : List (Rng σ ρ × σ)) (xss : List (List ρ)) : Prop := List.Forall₂ (fun b xs => Visits b.1 b.2 xs) s xss

theorem Visits.atEnd {r : Rng σ ρ} {s : σ} {xs : List ρ} (h : Visits r s xs) : r.atEnd s = .ok xs.isEmpty := by
  cases xs with
  | nil => exact h
  | cons x xs => exact h.1

theorem allNe_spec : ∀ {s : List (Rng σ ρ × σ)} {xss : List (List ρ)}, AllVisit s xss → allNe s = .ok (xss.all fun xs => !xs.isEmpty)
  | _, _, .nil => rfl
  | _, xs :: xss, .cons h t => by
    rw [allNe, h.atEnd, Res.ok_bind, allNe_spec t]
    cases xs <;> simp

theorem allEq_spec : ∀ {s : List (Rng σ ρ × σ)} {xss : List (List ρ)}, AllVisit s xss → allEq s = .ok (xss.all fun xs => xs.isEmpty)
  | _, _, .nil => rfl
  | _, xs :: xss, .cons h t => by
    rw [allEq, h.atEnd, Res.ok_bind, allEq_spec t]
    cases xs <;> simp

theorem anyEq_spec : ∀ {s : List (Rng σ ρ × σ)} {xss : List (List ρ)}, AllVisit s xss → anyEq s = .ok (xss.any fun xs => xs.isEmpty)
  | _, _, .nil => rfl
  | _, xs :: xss, .cons h t => by
    rw [anyEq, h.atEnd, Res.ok_bind, anyEq_spec t]
    cases xs <;> simp

theorem zipDeref_spec : ∀ {s : List (Rng σ ρ × σ)} {xss : List (List ρ)}, AllVisit s xss → (∀ xs ∈ xss, xs ≠ []) →
    ∃ row, zipDeref s = .ok row ∧ row.map some = xss.map fun xs => xs[0]?
  | _, _, .nil, _ => ⟨[], rfl, rfl⟩
  | _, [] :: xss, .cons h t, hne => absurd rfl (hne [] (by simp))
  | _, (x :: xs) :: xss, .cons h t, hne => by
    obtain ⟨row, e, hr⟩ := zipDeref_spec t fun xs hx => hne xs (by simp [hx])
    rw [zipDeref] at e
    exact ⟨x :: row, by rw [zipDeref, mapRes, h.2.1, Res.ok_bind, e, Res.ok_bind], by simp [hr]⟩

theorem zipNext_spec {s : List (Rng σ ρ × σ)} {xss : List (List ρ)} (hs : s ≠ []) (h : AllVisit s xss) (hne : ∀ xs ∈ xss, xs ≠ []) :
    ∃ s', zipNext s = .ok s' ∧ s' ≠ [] ∧ AllVisit s' (xss.map List.tail) := by
  have aux : ∀ {s : List (Rng σ ρ × σ)} {xss : List (List ρ)}, AllVisit s xss → (∀ xs ∈ xss, xs ≠ []) →
      ∃ s', mapRes (fun b => do .ok (b.1, ← b.1.next b.2)) s = .ok s' ∧ s'.length = s.length ∧ AllVisit s' (xss.map List.tail) := by
    intro s xss h
    induction h with
    | nil => exact fun _ => ⟨[], rfl, rfl, .nil⟩
    | @cons b xs s xss h t ih =>
      intro hne
      obtain ⟨s', e, hl, v⟩ := ih fun xs hx => hne xs (by simp [hx])
      cases xs with
      | nil => exact absurd rfl (hne [] (by simp))
      | cons x xs =>
        obtain ⟨-, -, it, h3, h4⟩ := h
        exact ⟨(b.1, it) :: s', by rw [mapRes, h3, Res.ok_bind, Res.ok_bind, e, Res.ok_bind], by simp [hl], .cons h4 v⟩
  obtain ⟨s', e, hl, v⟩ := aux h hne
  refine ⟨s', by rw [zipNext, if_neg hs, e], ?_, v⟩
  rintro rfl
  exact hs (List.length_eq_zero_iff.1 hl.symm)

theorem isRows_cons {n : Nat} {xss rows : List (List ρ)} {row : List ρ} (hr : row.map some = xss.map fun xs => xs[0]?)
    (h : IsRows n (xss.map List.tail) rows) : IsRows (n + 1) xss (row :: rows) := by
  refine ⟨by simp [h.1], fun i hi => ?_⟩
  cases i with
  | zero => exact hr
  | succ i =>
    have := h.2 i (by simpa using hi)
    rw [List.getElem_cons_succ, this, List.map_map]
    apply List.map_congr_left
    intro xs _
    simp

theorem tail_length {xs : List ρ} {n : Nat} (h : xs.length = n + 1) : xs.tail.length = n := by simp [h]

theorem visits_of_cols {r : Rng (List (Rng σ ρ × σ)) (List ρ)} (hd : r.deref = zipDeref) (hn : r.next = zipNext)
    (hend : ∀ {s : List (Rng σ ρ × σ)} {xss : List (List ρ)}, s ≠ [] → AllVisit s xss → (∀ xs ∈ xss, xs.length = 0) →
      r.atEnd s = .ok true)
    (hgo : ∀ {s : List (Rng σ ρ × σ)} {xss : List (List ρ)}, s ≠ [] → AllVisit s xss → (∀ xs ∈ xss, xs ≠ []) → r.atEnd s = .ok false) :
    ∀ (n : Nat) {s : List (Rng σ ρ × σ)} {xss : List (List ρ)}, s ≠ [] → AllVisit s xss → (∀ xs ∈ xss, n = xs.length) →
      ∃ rows, Visits r s rows ∧ IsRows n xss rows
  | 0, s, xss, hs, h, hl => by
    exact ⟨[], hend hs h fun xs hx => (hl xs hx).symm, rfl, fun i hi => by simp at hi⟩
  | n + 1, s, xss, hs, h, hl => by
    have hne : ∀ xs ∈ xss, xs ≠ [] := by rintro xs hx rfl; have := hl [] hx; simp at this
    obtain ⟨row, e1, hr⟩ := zipDeref_spec h hne
    obtain ⟨s', e2, hs', v⟩ := zipNext_spec hs h hne
    obtain ⟨rows, vr, ir⟩ := visits_of_cols hd hn hend hgo n hs' v (by
      intro ys hy
      obtain ⟨xs, hx, rfl⟩ := List.mem_map.1 hy
      exact (tail_length (hl xs hx).symm).symm)
    exact ⟨row :: rows, ⟨hgo hs h hne, by rw [hd, e1], s', by rw [hn, e2], vr⟩, isRows_cons hr ir⟩

theorem all_isEmpty_false {xss : List (List ρ)} (h : ∀ xs ∈ xss, xs ≠ []) : (xss.all fun xs => !xs.isEmpty) = true := by
  rw [List.all_eq_true]
  intro xs hx
  have := h xs hx
  cases xs <;> simp_all

theorem all_isEmpty {xss : List (List ρ)} (h : ∀ xs ∈ xss, xs.length = 0) : (xss.all fun xs => xs.isEmpty) = true := by
  rw [List.all_eq_true]
  intro xs hx
  simpa using h xs hx

theorem all_isEmpty_ne {xss : List (List ρ)} (hne : xss ≠ []) (h : ∀ xs ∈ xss, xs ≠ []) : (xss.all fun xs => xs.isEmpty) = false := by
  obtain ⟨x, hx⟩ := List.exists_mem_of_ne_nil _ hne
  rw [List.all_eq_false]
  refine ⟨x, hx, ?_⟩
  have := h x hx
  cases x <;> simp_all

theorem AllVisit.ne_nil {s : List (Rng σ ρ × σ)} {xss : List (List ρ)} (h : AllVisit s xss) (hs : s ≠ []) : xss ≠ [] := by
  rintro rfl; cases h; exact hs rfl

theorem visits_zipSized {n : Nat} {s : List (Rng σ ρ × σ)} {xss : List (List ρ)} (hs : s ≠ []) (h : AllVisit s xss) (hl : ∀ xs ∈ xss, n = xs.length) :
    ∃ rows, Visits zipSized s rows ∧ IsRows n xss rows := by
  refine visits_of_cols rfl rfl (fun _ h hz => ?_) (fun hs h hne => ?_) n hs h hl
  · rw [zipSized]; dsimp only; rw [allEq_spec h, all_isEmpty hz]
  · rw [zipSized]; dsimp only; rw [allEq_spec h, all_isEmpty_ne (h.ne_nil hs) hne]

theorem visits_zipChecked {n : Nat} {s : List (Rng σ ρ × σ)} {xss : List (List ρ)} (hs : s ≠ []) (h : AllVisit s xss) (hl : ∀ xs ∈ xss, n = xs.length) :
    ∃ rows, Visits zipChecked s rows ∧ IsRows n xss rows := by
  refine visits_of_cols rfl rfl (@fun s xss hs h hz => ?_) (fun hs h hne => ?_) n hs h hl
  · obtain ⟨xs, hx⟩ := List.exists_mem_of_ne_nil _ (h.ne_nil hs)
    have e : (xss.all fun xs => !xs.isEmpty) = false := List.all_eq_false.2 ⟨xs, hx, by simp [List.length_eq_zero_iff.1 (hz xs hx)]⟩
    rw [zipChecked]
    dsimp only
    rw [allNe_spec h, e, Res.ok_bind, allEq_spec h, all_isEmpty hz]
    rfl
  · rw [zipChecked]; dsimp only; rw [allNe_spec h, all_isEmpty_false hne, Res.ok_bind]; rfl

/-- Rows up to the shortest column. -/
theorem throws_zipChecked : ∀ (n : Nat) {s : List (Rng σ ρ × σ)} {xss : List (List ρ)}, AllVisit s xss → (∀ xs ∈ xss, n ≤ xs.length) →
    (∃ xs ∈ xss, xs.length = n) → (∃ xs ∈ xss, n < xs.length) → ∃ rows, Throws zipChecked s rows ∧ IsRows n xss rows
  | 0, s, xss, h, hl, hz, hlt => by
    refine ⟨[], ?_, rfl, fun i hi => by simp at hi⟩
    obtain ⟨xs, hx, h0⟩ := hz
    obtain ⟨ys, hy, h1⟩ := hlt
    rw [Throws, zipChecked]
    dsimp only
    have e1 : (xss.all fun xs => !xs.isEmpty) = false := List.all_eq_false.2 ⟨xs, hx, by simp [List.length_eq_zero_iff.1 h0]⟩
    have e2 : (xss.all fun xs => xs.isEmpty) = false := List.all_eq_false.2 ⟨ys, hy, by cases ys <;> simp at h1 ⊢⟩
    rw [allNe_spec h, e1, Res.ok_bind, allEq_spec h, e2]
    rfl
  | n + 1, s, xss, h, hl, hz, hlt => by
    have hne : ∀ xs ∈ xss, xs ≠ [] := by rintro xs hx rfl; have := hl [] hx; simp at this
    have hs : s ≠ [] := by
      rintro rfl
      cases h
      obtain ⟨xs, hx, -⟩ := hz
      simp at hx
    obtain ⟨row, e1, hr⟩ := zipDeref_spec h hne
    obtain ⟨s', e2, hs', v⟩ := zipNext_spec hs h hne
    obtain ⟨rows, vr, ir⟩ := throws_zipChecked n v
      (by intro ys hy
          obtain ⟨xs, hx, rfl⟩ := List.mem_map.1 hy
          have := hl xs hx
          rw [List.length_tail]; omega)
      (by obtain ⟨xs, hx, e⟩ := hz
          exact ⟨xs.tail, List.mem_map_of_mem hx, by simp [e]⟩)
      (by obtain ⟨xs, hx, e⟩ := hlt
          exact ⟨xs.tail, List.mem_map_of_mem hx, by rw [List.length_tail]; omega⟩)
    refine ⟨row :: rows, ⟨?_, e1, s', e2, vr⟩, isRows_cons hr ir⟩
    rw [zipChecked]; dsimp only; rw [allNe_spec h, all_isEmpty_false hne, Res.ok_bind]; rfl

theorem visits_zipSmallest : ∀ (n : Nat) {s : List (Rng σ ρ × σ)} {xss : List (List ρ)}, AllVisit s xss → (∀ xs ∈ xss, n ≤ xs.length) →
    (∃ xs ∈ xss, xs.length = n) → ∃ rows, Visits zipSmallest s rows ∧ IsRows n xss rows
  | 0, s, xss, h, hl, hz => by
    refine ⟨[], ?_, rfl, fun i hi => by simp at hi⟩
    obtain ⟨xs, hx, h0⟩ := hz
    have e1 : (xss.any fun xs => xs.isEmpty) = true := List.any_eq_true.2 ⟨xs, hx, by simp [List.length_eq_zero_iff.1 h0]⟩
    rw [Visits, zipSmallest]
    dsimp only
    rw [anyEq_spec h, e1]
  | n + 1, s, xss, h, hl, hz => by
    have hne : ∀ xs ∈ xss, xs ≠ [] := by rintro xs hx rfl; have := hl [] hx; simp at this
    have hs : s ≠ [] := by
      rintro rfl
      cases h
      obtain ⟨xs, hx, -⟩ := hz
      simp at hx
    obtain ⟨row, e1, hr⟩ := zipDeref_spec h hne
    obtain ⟨s', e2, hs', v⟩ := zipNext_spec hs h hne
    obtain ⟨rows, vr, ir⟩ := visits_zipSmallest n v
      (by intro ys hy
          obtain ⟨xs, hx, rfl⟩ := List.mem_map.1 hy
          have := hl xs hx
          rw [List.length_tail]; omega)
      (by obtain ⟨xs, hx, e⟩ := hz
          exact ⟨xs.tail, List.mem_map_of_mem hx, by simp [e]⟩)
    refine ⟨row :: rows, ⟨?_, e1, s', e2, vr⟩, isRows_cons hr ir⟩
    have e1 : (xss.any fun xs => xs.isEmpty) = false := by
      rw [List.any_eq_false]
      intro xs hx
      have := hne xs hx
      cases xs <;> simp_all
    rw [zipSmallest]; dsimp only; rw [anyEq_spec h, e1]

theorem allVisit_of_is : ∀ {Rs : List (Range σ ρ)} {xss : List (List ρ)}, List.Forall₂ Range.Is Rs xss →
    AllVisit (Rs.map fun R => (R.ops, R.first)) xss
  | _, _, .nil => .nil
  | _, _, .cons h t => .cons h.1 (allVisit_of_is t)

theorem sizes_spec : ∀ {Rs : List (Range σ ρ)} {xss : List (List ρ)} {sizes : List Nat}, List.Forall₂ Range.Is Rs xss →
    (Rs.mapM fun R => R.size?) = some sizes → sizes = xss.map List.length
  | _, _, _, .nil, h => by simpa using h.symm
  | R :: Rs, xs :: xss, sizes, .cons hR t, h => by
    rw [List.mapM_cons] at h
    cases hs : R.size? with
    | none => simp [hs] at h
    | some n =>
      cases hm : Rs.mapM fun R => R.size? with
      | none => simp [hs, hm] at h
      | some ns =>
        rw [hs, hm] at h
        simp only [Option.pure_def, Option.bind_eq_bind, Option.bind_some, Option.some.injEq] at h
        rw [← h, sizes_spec t hm, hR.2 n hs, List.map_cons]

theorem allAreEqual_iff {ns : List Nat} : allAreEqual ns = true ↔ ∃ n, ∀ m ∈ ns, n = m := by
  cases ns with
  | nil => simp [allAreEqual]
  | cons n ns =>
    rw [allAreEqual, List.all_eq_true]
    constructor
    · intro h
      refine ⟨n, fun m hm => ?_⟩
      rcases List.mem_cons.1 hm with rfl | hm
      · rfl
      · simpa using h m hm
    · rintro ⟨k, h⟩ m hm
      have e1 := h n (by simp)
      have e2 := h m (by simp [hm])
      simp [← e1, ← e2]

/-! ## The theorems -/

/-- `zip` of ranges of the same length gives the rows, whether the ranges have sizes or not. The size is the number of rows. -/
theorem C50_zip {Rs : List (Range σ ρ)} {xss : List (List ρ)} (h : List.Forall₂ Range.Is Rs xss) {n : Nat} (hl : ∀ xs ∈ xss, n = xs.length)
    (hne : Rs ≠ []) : ∃ Z rows, zip Rs = .ok Z ∧ Z.Is rows ∧ IsRows n xss rows := by
  have hv := allVisit_of_is h
  have hne' : (Rs.map fun R => (R.ops, R.first)) ≠ [] := by simpa using hne
  rw [zip]
  cases hs : Rs.mapM fun R => R.size? with
  | some sizes =>
    have es := sizes_spec h hs
    have ha : allAreEqual sizes = true := by
      rw [allAreEqual_iff]
      refine ⟨n, fun m hm => ?_⟩
      rw [es] at hm
      obtain ⟨xs, hx, rfl⟩ := List.mem_map.1 hm
      exact hl xs hx
    dsimp only
    rw [ha]
    obtain ⟨rows, vr, ir⟩ := visits_zipSized hne' hv hl
    refine ⟨_, rows, rfl, ⟨vr, fun m hm => ?_⟩, ir⟩
    cases h with
    | nil => exact absurd rfl hne
    | @cons R xs Rs xss hR t =>
      have e : m = xs.length := hR.2 m hm
      rw [e, ir.1, hl xs (by simp)]
  | none =>
    obtain ⟨rows, vr, ir⟩ := visits_zipChecked hne' hv hl
    exact ⟨_, rows, rfl, ⟨vr, fun m hm => by cases hm⟩, ir⟩

/-- `zip` of no ranges is empty. -/
theorem C50_zip_nothing : ∃ Z, zip ([] : List (Range σ ρ)) = .ok Z ∧ Z.Is [] :=
  ⟨_, rfl, rfl, fun n hn => by cases hn; rfl⟩

/-- `zip` of ranges of different lengths throws: when it is constructed if all ranges have sizes, otherwise after the rows up to the
end of the shortest range. -/
theorem C50_zip_throws {Rs : List (Range σ ρ)} {xss : List (List ρ)} (h : List.Forall₂ Range.Is Rs xss) {xs ys : List ρ} (hx : xs ∈ xss) (hy : ys ∈ xss)
    (hl : xs.length ≠ ys.length) :
    if ∀ R ∈ Rs, R.size?.isSome then zip Rs = .exn
    else ∃ Z n rows, zip Rs = .ok Z ∧ Throws Z.ops Z.first rows ∧ (∀ xs ∈ xss, n ≤ xs.length) ∧ (∃ xs ∈ xss, xs.length = n) ∧ IsRows n xss rows := by
  rw [zip]
  split
  · rename_i hsome
    have : ∃ sizes, (Rs.mapM fun R => R.size?) = some sizes := by
      clear h hx hy
      induction Rs with
      | nil => exact ⟨[], rfl⟩
      | cons R Rs ih =>
        obtain ⟨ns, e⟩ := ih fun R hR => hsome R (by simp [hR])
        obtain ⟨n, hn⟩ := Option.isSome_iff_exists.1 (hsome R (by simp))
        exact ⟨n :: ns, by rw [List.mapM_cons, hn, e]; rfl⟩
    obtain ⟨sizes, hs⟩ := this
    rw [hs]
    dsimp only
    have ha : allAreEqual sizes = false := by
      rw [Bool.eq_false_iff, ne_eq, allAreEqual_iff]
      rintro ⟨n, hn⟩
      rw [sizes_spec h hs] at hn
      exact hl ((hn _ (List.mem_map_of_mem hx)).symm.trans (hn _ (List.mem_map_of_mem hy)))
    rw [ha]
    rfl
  · rename_i hsome
    have : (Rs.mapM fun R => R.size?) = none := by
      cases hs : Rs.mapM fun R => R.size? with
      | none => rfl
      | some sizes =>
        exfalso
        apply hsome
        clear hsome h hx hy
        induction Rs generalizing sizes with
        | nil => simp
        | cons R Rs ih =>
          rw [List.mapM_cons] at hs
          cases hz : R.size? with
          | none => simp [hz] at hs
          | some n =>
            cases hm : Rs.mapM fun R => R.size? with
            | none => simp [hz, hm] at hs
            | some ns =>
              intro Q hQ
              rcases List.mem_cons.1 hQ with rfl | hQ
              · simp [hz]
              · exact ih ns hm Q hQ
    rw [this]
    dsimp only
    -- the shortest column
    have hmin : ∃ n, (∀ xs ∈ xss, n ≤ xs.length) ∧ ∃ xs ∈ xss, xs.length = n := by
      clear h hy hl this hsome
      induction xss generalizing xs with
      | nil => simp at hx
      | cons a xss ih =>
        cases xss with
        | nil => exact ⟨a.length, by simp, a, by simp, rfl⟩
        | cons b xss =>
          obtain ⟨n, h1, c, hc, e⟩ := ih (xs := b) (by simp)
          rcases Nat.le_total a.length n with ha | ha
          · refine ⟨a.length, fun xs hx => ?_, a, by simp, rfl⟩
            rcases List.mem_cons.1 hx with rfl | hx
            · exact Nat.le_refl _
            · exact Nat.le_trans ha (h1 xs hx)
          · refine ⟨n, fun xs hx => ?_, c, List.mem_cons_of_mem _ hc, e⟩
            rcases List.mem_cons.1 hx with rfl | hx
            · exact ha
            · exact h1 xs hx
    obtain ⟨n, h1, h2⟩ := hmin
    have h3 : ∃ zs ∈ xss, n < zs.length := by
      have a := h1 xs hx
      have b := h1 ys hy
      rcases Nat.lt_or_ge n xs.length with hlt | hge
      · exact ⟨xs, hx, hlt⟩
      · exact ⟨ys, hy, by omega⟩
    obtain ⟨rows, vr, ir⟩ := throws_zipChecked n (allVisit_of_is h) h1 h2 h3
    exact ⟨_, n, rows, rfl, vr, h1, h2, ir⟩

/-- `zip_smallest` gives the rows up to the end of the shortest range. -/
theorem C50_zip_smallest {Rs : List (Range σ ρ)} {xss : List (List ρ)} (h : List.Forall₂ Range.Is Rs xss) {n : Nat} (hl : ∀ xs ∈ xss, n ≤ xs.length)
    (hn : ∃ xs ∈ xss, xs.length = n) : ∃ rows, (zipSmallestUnsized Rs).Is rows ∧ IsRows n xss rows := by
  obtain ⟨rows, vr, ir⟩ := visits_zipSmallest n (allVisit_of_is h) hl hn
  exact ⟨rows, ⟨vr, fun m hm => by cases hm⟩, ir⟩

theorem minSize_spec {n : Nat} : ∀ {ns : List Nat}, (∀ m ∈ ns, n ≤ m) → n ∈ ns → minSize ns = n
  | [], _, h => by simp at h
  | [m], _, h => by simp at h; rw [minSize, h]
  | a :: b :: ns, h1, h2 => by
    rw [minSize]
    · rcases List.mem_cons.1 h2 with rfl | h2
      · have : ∀ {ns : List Nat}, ns ≠ [] → (∀ m ∈ ns, n ≤ m) → n ≤ minSize ns := by
          intro ns
          induction ns with
          | nil => simp
          | cons c ns ih =>
            intro _ hc
            cases ns with
            | nil => simpa [minSize] using hc
            | cons d ns =>
              rw [minSize]
              · have := ih (by simp) fun m hm => hc m (by simp only [List.mem_cons] at hm ⊢; tauto)
                have := hc c (by simp)
                omega
              · simp
        have := this (ns := b :: ns) (by simp) fun m hm => h1 m (by simp only [List.mem_cons] at hm ⊢; tauto)
        omega
      · have e := minSize_spec (ns := b :: ns) (fun m hm => h1 m (by simp only [List.mem_cons] at hm ⊢; tauto)) h2
        have := h1 a (by simp)
        omega
    · simp

/-- The same for random access ranges, where the result has a size. -/
theorem C50_zip_smallest_random_access {rs : List (RA σ ρ × σ × Nat)} {xss : List (List ρ)}
    (h : List.Forall₂ (fun r xs => r.2.2 = xs.length ∧ ∃ pos, r.2.1 = pos 0 ∧ Indexed r.1 pos xs) rs xss)
    {n : Nat} (hl : ∀ xs ∈ xss, n ≤ xs.length) (hn : ∃ xs ∈ xss, xs.length = n) :
    ∃ Z rows, zipSmallestRA rs = .ok Z ∧ Z.Is rows ∧ Z.size? = some n ∧ IsRows n xss rows := by
  have e1 : rs.map (fun r => r.2.2) = xss.map List.length := by
    clear hl hn
    induction h with
    | nil => rfl
    | cons h t ih => rw [List.map_cons, List.map_cons, ih, h.1]
  have e2 : minSize (rs.map fun r => r.2.2) = n := by
    rw [e1]
    refine minSize_spec (fun m hm => ?_) ?_
    · obtain ⟨xs, hx, rfl⟩ := List.mem_map.1 hm
      exact hl xs hx
    · obtain ⟨xs, hx, rfl⟩ := hn
      exact List.mem_map_of_mem hx
  have e3 : ∃ taken, mapRes (fun r : RA σ ρ × σ × Nat => do .ok (Range.mk (← takeRA r.1 r.2.1 r.2.2 n).toRng r.2.1 (some (min r.2.2 n)))) rs = .ok taken ∧
      List.Forall₂ (fun (R : Range σ ρ) xs => R.Is xs ∧ R.size? = some n) taken (xss.map fun xs => xs.take n) := by
    clear e1 e2 hn
    induction h with
    | nil => exact ⟨[], rfl, .nil⟩
    | @cons r xs rs xss h t ih =>
      obtain ⟨taken, e, v⟩ := ih fun xs hx => hl xs (by simp [hx])
      obtain ⟨hs, pos, hp, hi⟩ := h
      obtain ⟨r', er, vr⟩ := C50_take_random_access hi n
      rw [← hp, ← hs] at er
      have hlen := hl xs (by simp)
      refine ⟨⟨r'.toRng, r.2.1, some (min r.2.2 n)⟩ :: taken, ?_, .cons ⟨⟨?_, fun m hm => ?_⟩, ?_⟩ v⟩
      · rw [mapRes, er, Res.ok_bind, Res.ok_bind, e, Res.ok_bind]
      · dsimp only
        rw [hp]
        exact vr.visits
      · simp only [Option.some.injEq] at hm
        rw [List.length_take]; omega
      · rw [Option.some.injEq]; omega
  obtain ⟨taken, et, vt⟩ := e3
  have hv : AllVisit (taken.map fun R => (R.ops, R.first)) (xss.map fun xs => xs.take n) :=
    allVisit_of_is (vt.imp fun _ _ h => h.1)
  have hne : taken ≠ [] := by
    rintro rfl
    obtain ⟨xs, hx, -⟩ := hn
    cases xss with
    | nil => simp at hx
    | cons => cases vt
  obtain ⟨rows, vr, ir⟩ := visits_zipSized (n := n) (by simpa using hne) hv (by
    intro ys hy
    obtain ⟨xs, hx, rfl⟩ := List.mem_map.1 hy
    have := hl xs hx
    rw [List.length_take]; omega)
  have hz : zipSize taken = some n := by
    cases taken with
    | nil => exact absurd rfl hne
    | cons R taken =>
      cases hxs : xss with
      | nil => rw [hxs] at vt; cases vt
      | cons xs xss' =>
        rw [hxs] at vt
        cases vt with
        | cons h t => exact h.2
  refine ⟨_, rows, by rw [zipSmallestRA, e2, et, Res.ok_bind], ⟨vr, fun m hm => ?_⟩, hz, ir.1, fun i hi => ?_⟩
  · dsimp only at hm
    rw [hz] at hm
    cases hm
    exact ir.1.symm
  · rw [ir.2 i hi, List.map_map]
    apply List.map_congr_left
    intro xs _
    have := ir.1
    simp only [Function.comp_apply]
    rw [List.getElem?_take_of_lt (by omega)]

/-! ## Examples -/

example : ∃ Z, zip [memAsRange exMem 0 2 true, memAsRange exMem 2 4 false] = .ok Z ∧ forEach Z.ops 9 Z.first = some (.ok [[3, 4], [1, 1]]) :=
  ⟨_, rfl, by decide +kernel⟩

example : zip [memAsRange exMem 0 2 true, memAsRange exMem 2 5 true] = .exn := by rfl

example : ∃ Z, zip [memAsRange exMem 0 2 true, memAsRange exMem 2 5 false] = .ok Z ∧ forEach Z.ops 9 Z.first = some .exn :=
  ⟨_, rfl, by decide +kernel⟩

example : List.Forall₂ Range.Is [memAsRange exMem 0 5 true, exRange] [[3, 1, 4, 1, 5], [3, 1, 4, 1, 5]] :=
  .cons (memAsRange_is exMem_seg true) (.cons exRange_is .nil)

example : ∃ Z, zipSmallestRA [(memRange exMem 0 2, 0, 2), (memRange exMem 2 5, 2, 3)] = .ok Z ∧ forEach Z.ops 9 Z.first = some (.ok [[3, 4], [1, 1]]) :=
  ⟨_, rfl, by decide +kernel⟩

end Verif.Views
