import Verif.Tv.Variant
import Mathlib.Data.List.Forall2

/-!
# `visit`, `visit_with_index` and `get_index` (property C23)
-/

namespace Verif.Tv

open Verif

variable {V : Type}

/-- source/tv/visit.cpp 103-164: the search for the active alternative of one variant with
`n` alternatives whose index is `search`: a switch over 16 alternatives starting at
`offset`, then the same again from `offset + 16`. The type of `this_search` is
`integer<0 - offset, n - 1 - offset>`; `std::unreachable` is `ub`. -/
def visitSearch (n search offset : Nat) : Res Nat :=
  let thisSearch : Int := (search : Int) - offset
  let maxThis : Int := (n : Int) - 1 - offset
  if 0 ≤ thisSearch ∧ thisSearch ≤ 15 then
    if maxThis < thisSearch then .ub
    else .ok (offset + thisSearch.toNat)
  else if _h : maxThis < 16 then .ub
  else visitSearch n search (offset + 16)
termination_by n - offset
decreasing_by omega

/-- source/tv/visit.cpp 91-101 `get_element` with source/tv/variadic_union.cpp 47-54: the
member at a position. Reading a member that is not the active one is undefined. -/
def getElement (s : Var V) (k : Nat) : Res V :=
  match s.data with
  | some (j, v) => if j = k then .ok v else .ub
  | none => .ub

/-- source/tv/visit.cpp 82-89, 103-164 `visit_implementation`: the variants are replaced
from left to right by their active elements (`use_index` adds the position); when all
are replaced the function is called. `elements` are the ones already replaced. Every
variant comes with its number of alternatives. -/
def visitImpl (f : List (Nat × V) → Res β) (elements : List (Nat × V)) : List (Nat × Var V) → Res β
  | [] => f elements
  | (n, s) :: rest =>
    match visitSearch n s.idx 0 with
    | .ok k =>
      match getElement s k with
      | .ok v => visitImpl f (elements ++ [(k, v)]) rest
      | _ => .ub
    | _ => .ub

/-- source/tv/visit.cpp 166-189. -/
def visit (f : List (Nat × V) → Res β) (variants : List (Nat × Var V)) : Res β := visitImpl f [] variants

theorem visitSearch_spec (n search : Nat) (hs : search < n) :
    ∀ m offset, n - offset ≤ m → offset ≤ search → visitSearch n search offset = .ok search := by
  intro m
  induction m with
  | zero => intro offset h1 h2; omega
  | succ m ih =>
    intro offset h1 h2
    unfold visitSearch
    simp only
    split
    · rw [if_neg (by omega)]
      congr 1; omega
    · rw [dif_neg (by omega)]
      exact ih (offset + 16) (by omega) (by omega)

/-- A variant with `n` alternatives that holds `x`. -/
def HoldsAlt (n : Nat) (s : Var V) (x : Nat × V) : Prop := x.1 < n ∧ s = ⟨x.1, some x⟩

theorem visitImpl_spec (f : List (Nat × V) → Res β) : ∀ (vs : List (Nat × Var V)) (xs es : List (Nat × V)),
    List.Forall₂ (fun (p : Nat × Var V) x => HoldsAlt p.1 p.2 x) vs xs → visitImpl f es vs = f (es ++ xs) := by
  intro vs
  induction vs with
  | nil => intro xs es h; cases h; simp [visitImpl]
  | cons p vs ih =>
    intro xs es h
    cases h with
    | cons h1 h2 =>
      rename_i x xs
      obtain ⟨n, s⟩ := p
      obtain ⟨h3, h4⟩ := h1
      simp only at h3 h4
      subst h4
      simp only [visitImpl]
      rw [visitSearch_spec n x.1 h3 n 0 (by omega) (by omega)]
      simp only [getElement, if_true]
      rw [ih xs _ h2, List.append_assoc]
      rfl

/-- C23: visiting any number of variants with any numbers of alternatives calls the
function exactly once, with exactly the active values in the order of the variants and
(for `visit_with_index`) their positions, and returns what the function returns. No
unreachable branch is reached and no inactive member is read. -/
theorem C23_visit_exact (f : List (Nat × V) → Res β) (vs : List (Nat × Var V)) (xs : List (Nat × V))
    (h : List.Forall₂ (fun (p : Nat × Var V) x => HoldsAlt p.1 p.2 x) vs xs) : visit f vs = f xs := by
  unfold visit
  rw [visitImpl_spec f vs xs [] h]
  rfl

/-- C23: this applies to every state that a variant can reach (C22). -/
theorem C23_visit_reachable {n : Nat} {w : Nat → Option (Var V)} {a : VAbs V} (h : VRel n w a) {i : Nat} {x : Nat × V}
    (hi : a i = some x) (f : List (Nat × V) → Res β) : ∃ s, w i = some s ∧ visit f [(n, s)] = f [x] := by
  obtain ⟨h1, h2⟩ := vrel_some h (k := x.1) (v := x.2) hi
  exact ⟨_, h2, C23_visit_exact f _ _ (.cons ⟨h1, rfl⟩ .nil)⟩

theorem visitSearch_bad (n search : Nat) (hs : n ≤ search) : ∀ m offset, n - offset ≤ m → visitSearch n search offset = .ub := by
  intro m
  induction m with
  | zero =>
    intro offset h
    unfold visitSearch
    simp only
    split
    · rw [if_pos (by omega)]
    · rw [dif_pos (by omega)]
  | succ m ih =>
    intro offset h
    unfold visitSearch
    simp only
    split
    · rw [if_pos (by omega)]
    · split
      · rfl
      · exact ih (offset + 16) (by omega)

/-- C23: visiting a variant that holds no alternative, or not the one that its index says, is undefined. The function is not called. -/
theorem C23_visit_undefined (f : List (Nat × V) → Res β) (n : Nat) (s : Var V) (h : ∀ x, ¬ HoldsAlt n s x) (rest : List (Nat × Var V)) :
    visit f ((n, s) :: rest) = .ub := by
  unfold visit
  simp only [visitImpl]
  rcases Nat.lt_or_ge s.idx n with hi | hi
  · rw [visitSearch_spec n s.idx hi n 0 (by omega) (by omega)]
    obtain ⟨i, d⟩ := s
    cases d with
    | none => rfl
    | some x =>
      have hx : ¬ x.1 = i := fun e => h x ⟨e ▸ hi, by rw [e]⟩
      simp only [getElement, if_neg hx]
  · rw [visitSearch_bad n s.idx hi n 0 (by omega)]

/-- A variant with three alternatives whose index is 1 and whose union holds the third. -/
example : ∀ x, ¬ HoldsAlt 3 (⟨1, some (2, 7)⟩ : Var Nat) x := by
  rintro ⟨a, b⟩ ⟨-, h⟩
  simp only [Var.mk.injEq, Option.some.injEq, Prod.mk.injEq] at h
  omega

/-! ## Positions by type -/

/-- source/tv/get_index.cpp 18-29: the fold over the types with `found` and `value`. -/
def getIndexLoop {T : Type} [DecidableEq T] (index : T) : List T → Bool → Nat → Nat
  | [], _, value => value
  | t :: ts, found, value =>
    if found then getIndexLoop index ts found value
    else getIndexLoop index ts (decide (index = t)) (value + 1)

/-- source/tv/get_index.cpp 15-31: `none` when the type does not occur exactly once
(`matches_exactly_one_type`). -/
def getIndex {T : Type} [DecidableEq T] (index : T) (ts : List T) : Option Nat :=
  if ts.count index = 1 then some (getIndexLoop index ts false 0 - 1) else none

theorem getIndexLoop_found {T : Type} [DecidableEq T] (index : T) (ts : List T) (v : Nat) :
    getIndexLoop index ts true v = v := by
  induction ts with
  | nil => rfl
  | cons t ts ih => simp [getIndexLoop, ih]

theorem getIndexLoop_spec {T : Type} [DecidableEq T] (index : T) : ∀ (ts : List T) (v : Nat), index ∈ ts →
    ∃ k, getIndexLoop index ts false v = v + k + 1 ∧ ts[k]? = some index := by
  intro ts
  induction ts with
  | nil => simp
  | cons t ts ih =>
    intro v hm
    simp only [getIndexLoop, Bool.false_eq_true, if_false]
    by_cases h : index = t
    · subst h
      exact ⟨0, by simp [getIndexLoop_found], rfl⟩
    · have hm' : index ∈ ts := by
        cases hm with
        | head => exact absurd rfl h
        | tail _ hm => exact hm
      obtain ⟨k, h1, h2⟩ := ih (v + 1) hm'
      refine ⟨k + 1, ?_, by simpa using h2⟩
      rw [show decide (index = t) = false by simp [h], h1]
      omega

/-- C23: naming an alternative by its type selects the one position at which this type
stands, and is rejected when there is none or more than one. -/
theorem C23_get_index {T : Type} [DecidableEq T] (index : T) (ts : List T) :
    (∀ k, getIndex index ts = some k → ts[k]? = some index) ∧
    ((getIndex index ts).isSome ↔ ts.count index = 1) := by
  unfold getIndex
  constructor
  · intro k hk
    split at hk
    · rename_i h
      have hm : index ∈ ts := by
        apply List.count_pos_iff.mp; omega
      obtain ⟨j, h1, h2⟩ := getIndexLoop_spec index ts 0 hm
      rw [h1] at hk
      simp at hk
      subst hk
      exact h2
    · simp at hk
  · split <;> simp [*]

/-- A variant with 40 alternatives and one with 2. -/
example : visit (fun xs => Res.ok xs) [(40, ⟨37, some (37, 5)⟩), (2, ⟨0, some (0, 8)⟩)] = .ok [(37, 5), (0, 8)] :=
  C23_visit_exact _ _ _ (.cons ⟨by decide, rfl⟩ (.cons ⟨by decide, rfl⟩ .nil))

end Verif.Tv
