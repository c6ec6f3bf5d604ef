import Verif.Views.Adapt
import Mathlib.Data.List.Forall2

/-!
# Views of several ranges one after the other (property C49)

Models /repo/source/containers/algorithms/concatenate_view.cpp. An iterator is the tuple of what is left of the ranges; as the ends never change,
it is the list of the begin iterators. The ranges have the same type here.
-/

namespace Verif.Views

open Verif Algo

variable {σ ρ : Type}

/-! ## Ranges of any kind -/

/-- `operator==` with the sentinel: all are empty (concatenate_view.cpp:196-199). -/
def catAtEnd : List (Rng σ ρ) → List σ → Res Bool
  | r :: rs, s :: ss => do if ← r.atEnd s then catAtEnd rs ss else .ok false
  | _, _ => .ok true

/-- `operator_star` (concatenate_view.cpp:204-213): the front of the first one that is not empty, where the last one is not asked. -/
def catDeref : List (Rng σ ρ) → List σ → Res ρ
  | [r], [s] => r.deref s
  | r :: rs, s :: ss => do if !(← r.atEnd s) then r.deref s else catDeref rs ss
  | _, _ => .ub

/-- `it + 1_bi` (concatenate_view.cpp:123-149, the first branch): the first one that is not empty loses its front. -/
def catNext : List (Rng σ ρ) → List σ → Res (List σ)
  | r :: rs, s :: ss => do
    if ← r.atEnd s then .ok (s :: (← catNext rs ss)) else
    .ok ((← r.next s) :: ss)
  | _, _ => .ok []

/-- The iterators of a `concatenate_view` with the sentinel `std::default_sentinel`. -/
def concatView (rs : List (Rng σ ρ)) : Rng (List σ) ρ where
  atEnd := catAtEnd rs
  deref := catDeref rs
  next := catNext rs

/-- The iterator visits what is left of the ranges. -/
theorem visits_concatView : ∀ {rs : List (Rng σ ρ)} {ss : List σ} {xss : List (List ρ)},
    List.Forall₂ (fun (q : Rng σ ρ × σ) xs => Visits q.1 q.2 xs) (rs.zip ss) xss → rs.length = ss.length → Visits (concatView rs) ss xss.flatten := by
  have key : ∀ {rs : List (Rng σ ρ)} {ss : List σ} {xss : List (List ρ)}, List.Forall₂ (fun (q : Rng σ ρ × σ) xs => Visits q.1 q.2 xs) (rs.zip ss) xss →
      rs.length = ss.length →
      (xss.flatten = [] → catAtEnd rs ss = .ok true) ∧
      (∀ x ys, xss.flatten = x :: ys → catAtEnd rs ss = .ok false ∧ catDeref rs ss = .ok x ∧ ∃ ss' xss', catNext rs ss = .ok ss' ∧ xss'.flatten = ys ∧
        rs.length = ss'.length ∧ List.Forall₂ (fun (q : Rng σ ρ × σ) xs => Visits q.1 q.2 xs) (rs.zip ss') xss') := by
    intro rs
    induction rs with
    | nil =>
      intro ss xss h hl
      cases h
      exact ⟨fun _ => rfl, fun x ys e => by simp at e⟩
    | cons r rs ih =>
      intro ss xss h hl
      cases ss with
      | nil => simp at hl
      | cons s ss =>
        rw [List.zip_cons_cons] at h
        cases h with
        | cons hv h =>
          rename_i xs xss
          obtain ⟨h1, h2⟩ := ih h (by simpa using hl)
          cases xs with
          | nil =>
            have hv' : r.atEnd s = .ok true := hv
            rw [List.flatten_cons, List.nil_append]
            refine ⟨fun e => ?_, fun x ys e => ?_⟩
            · rw [catAtEnd, hv', Res.ok_bind, if_pos rfl, h1 e]
            · obtain ⟨q1, q2, ss', xss', q3, q4, q5, q6⟩ := h2 x ys e
              refine ⟨by rw [catAtEnd, hv', Res.ok_bind, if_pos rfl, q1], ?_, s :: ss', [] :: xss', ?_, by simpa using q4, by simpa using q5, ?_⟩
              · cases rs with
                | nil =>
                  cases h
                  simp at e
                | cons r' rs =>
                  rw [catDeref, hv', Res.ok_bind, if_neg (by simp), q2]
                  intro h; cases h
              · rw [catNext, hv', Res.ok_bind, if_pos rfl, q3, Res.ok_bind]
              · rw [List.zip_cons_cons]
                exact .cons hv q6
          | cons x xs =>
            obtain ⟨a1, a2, s', a3, a4⟩ := hv
            rw [List.flatten_cons, List.cons_append]
            refine ⟨fun e => (by cases e), fun x' ys e => ?_⟩
            obtain ⟨rfl, rfl⟩ := List.cons.inj e
            refine ⟨by rw [catAtEnd, a1, Res.ok_bind, if_neg (by simp)], ?_, s' :: ss, xs :: xss, ?_, rfl, by simpa using hl, ?_⟩
            · cases rs with
              | nil =>
                cases ss with
                | nil => rw [catDeref, a2]
                | cons => simp at hl
              | cons r' rs =>
                rw [catDeref, a1, Res.ok_bind, if_pos (by rfl), a2]
                intro h; cases h
            · rw [catNext, a1, Res.ok_bind, if_neg (by simp), a3, Res.ok_bind]
            · rw [List.zip_cons_cons]
              exact .cons a4 h
  have main : ∀ (zs : List ρ) {rs : List (Rng σ ρ)} {ss : List σ} {xss : List (List ρ)},
      List.Forall₂ (fun (q : Rng σ ρ × σ) xs => Visits q.1 q.2 xs) (rs.zip ss) xss → rs.length = ss.length → xss.flatten = zs →
      Visits (concatView rs) ss zs := by
    intro zs
    induction zs with
    | nil => intro rs ss xss h hl e; exact (key h hl).1 e
    | cons z zs ih =>
      intro rs ss xss h hl e
      obtain ⟨q1, q2, ss', xss', q3, q4, q5, q6⟩ := (key h hl).2 z zs e
      exact ⟨q1, q2, ss', q3, ih q6 q5 q4⟩
  intro rs ss xss h hl
  exact main _ h hl rfl

/-- A view of several ranges one after the other: `begin_impl` and `size` (concatenate_view.cpp:228-281). -/
def Range.concatenateView (Rs : List (Range σ ρ)) : Range (List σ) ρ where
  ops := concatView (Rs.map (·.ops))
  first := Rs.map (·.first)
  size? := if Rs.all (·.size?.isSome) then some (Rs.map fun R => R.size?.getD 0).sum else none

/-- It visits the elements of all ranges in order, and has the sum of the sizes. -/
theorem C49_concatenate_view {Rs : List (Range σ ρ)} {xss : List (List ρ)} (h : List.Forall₂ Range.Is Rs xss) :
    (Range.concatenateView Rs).Is xss.flatten := by
  refine ⟨visits_concatView ?_ (by simp [Range.concatenateView]), ?_⟩
  · rw [Range.concatenateView]
    dsimp only
    rw [List.zip_map', List.forall₂_map_left_iff]
    exact h.imp fun R xs hR => hR.1
  · intro n hn
    rw [Range.concatenateView] at hn
    dsimp only at hn
    split at hn
    · rename_i ha
      rw [Option.some.injEq] at hn
      rw [← hn, List.length_flatten]
      clear hn
      induction h with
      | nil => rfl
      | cons hR _ ih =>
        rw [List.all_cons, Bool.and_eq_true] at ha
        obtain ⟨k, hk⟩ := Option.isSome_iff_exists.1 ha.1
        rw [List.map_cons, List.map_cons, List.sum_cons, List.sum_cons, ih ha.2, hk, ← hR.2 k hk]
        rfl
    · cases hn

/-! ## Random access -/

/-- A range with its end iterator. -/
structure Part (σ ρ : Type) where
  ops : RA σ ρ
  last : σ

/-- `it + n` (concatenate_view.cpp:123-149, the second branch): every range loses as much as it can and as there is left to add. -/
def catAdd : List (Part σ ρ) → List σ → Int → Res (List σ)
  | r :: rs, s :: ss, n => do
    let size ← r.ops.sub r.last s
    let added := min size n
    let s' ← r.ops.add s added
    .ok (s' :: (← catAdd rs ss (n - added)))
  | _, _, _ => .ok []

/-- `it - it` (concatenate_view.cpp:151-161). The ends are the same. -/
def catSub : List (Part σ ρ) → List σ → List σ → Res Int
  | r :: rs, s :: ss, t :: ts => do
    let d ← r.ops.sub s t
    .ok (d + (← catSub rs ss ts))
  | _, _, _ => .ok 0

/-- `std::default_sentinel - it` and the size of the view (concatenate_view.cpp:164-170, 266-269). -/
def catSize : List (Part σ ρ) → List σ → Res Int
  | r :: rs, s :: ss => do
    let d ← r.ops.sub r.last s
    .ok (d + (← catSize rs ss))
  | _, _ => .ok 0

/-- `==` of the tuples of begin iterators (concatenate_view.cpp:190-194). -/
def catEq : List (Part σ ρ) → List σ → List σ → Res Bool
  | r :: rs, s :: ss, t :: ts => do
    if ← r.ops.eq s t then catEq rs ss ts else .ok false
  | _, _, _ => .ok true

/-- `<=>` of the tuples of begin iterators (concatenate_view.cpp:176-183). -/
def catCmp : List (Part σ ρ) → List σ → List σ → Res Ordering
  | r :: rs, s :: ss, t :: ts => do
    let c ← r.ops.cmp s t
    if c = .eq then catCmp rs ss ts else .ok c
  | _, _, _ => .ok .eq

/-- `it + n` for `n` of any type (concatenate_view.cpp:115-124): it can be used with types without negative values only, and asserts that. -/
def catAddOffset (rs : List (Part σ ρ)) (ss : List σ) (n : Int) : Res (List σ) := if n < 0 then .ub else catAdd rs ss n

/-- The iterators of a `concatenate_view` of random access ranges with the end `last`. -/
def concatViewRA (rs : List (Part σ ρ)) (last : List σ) : RA (List σ) ρ where
  atEnd its := catEq rs its last
  deref := catDeref (rs.map (·.ops.toRng))
  next := catNext (rs.map (·.ops.toRng))
  eq := catEq rs
  add := catAddOffset rs
  sub := catSub rs
  cmp := catCmp rs

/-- `begin() + size()` (concatenate_view.cpp:253-261). -/
def catEnd (rs : List (Part σ ρ)) (first : List σ) : Res (List σ) := do catAddOffset rs first (← catSize rs first)

/-- The operations are those of positions in `xs`, but iterators can be moved forwards only. -/
structure ForwardIndexed (r : RA σ ρ) (pos : Nat → σ) (xs : List ρ) : Prop extends Positions r.toFwd pos xs where
  add : ∀ i j, i ≤ j → j ≤ xs.length → r.add (pos i) ((j : Int) - i) = .ok (pos j)
  sub : ∀ i j, i ≤ xs.length → j ≤ xs.length → r.sub (pos i) (pos j) = .ok ((i : Int) - j)
  cmp : ∀ i j, i ≤ xs.length → j ≤ xs.length → r.cmp (pos i) (pos j) = .ok (compare i j)

/-- The iterator for a position in the concatenation. -/
def catPos : List ((Nat → σ) × List ρ) → Nat → List σ
  | [], _ => []
  | (pos, xs) :: ps, k => pos (min k xs.length) :: catPos ps (k - xs.length)

/-- The parts are ranges with these positions and elements. -/
def PartIs (r : Part σ ρ) (p : (Nat → σ) × List ρ) : Prop := Indexed r.ops p.1 p.2 ∧ r.last = p.1 p.2.length

variable {rs : List (Part σ ρ)} {ps : List ((Nat → σ) × List ρ)}

/-- The elements one after the other. -/
abbrev catElems (ps : List ((Nat → σ) × List ρ)) : List ρ := (ps.map (·.2)).flatten

theorem catEq_spec (h : List.Forall₂ PartIs rs ps) : ∀ {i j : Nat}, i ≤ (catElems ps).length → j ≤ (catElems ps).length →
    catEq rs (catPos ps i) (catPos ps j) = .ok (decide (i = j)) := by
  induction h with
  | nil => intro i j hi hj; simp at hi hj; subst hi; subst hj; rfl
  | cons hp _ ih =>
    rename_i r p rs ps _
    obtain ⟨pos, xs⟩ := p
    obtain ⟨hp, -⟩ : Indexed r.ops pos xs ∧ r.last = pos xs.length := hp
    intro i j hi hj
    simp only [catElems, List.map_cons, List.flatten_cons, List.length_append] at hi hj ih
    rw [catPos, catPos, catEq, hp.eq _ _ (Nat.min_le_right _ _) (Nat.min_le_right _ _), Res.ok_bind, ih (by omega) (by omega)]
    by_cases e : min i xs.length = min j xs.length
    · rw [if_pos (by simpa using e), Res.ok.injEq, decide_eq_decide]; omega
    · rw [if_neg (by simpa using e), Res.ok.injEq, eq_comm, decide_eq_false_iff_not]
      intro e'; exact e (by rw [e'])

theorem catSub_spec (h : List.Forall₂ PartIs rs ps) : ∀ {i j : Nat}, i ≤ (catElems ps).length → j ≤ (catElems ps).length →
    catSub rs (catPos ps i) (catPos ps j) = .ok ((i : Int) - j) := by
  induction h with
  | nil => intro i j hi hj; simp at hi hj; subst hi; subst hj; rfl
  | cons hp _ ih =>
    rename_i r p rs ps _
    obtain ⟨pos, xs⟩ := p
    obtain ⟨hp, -⟩ : Indexed r.ops pos xs ∧ r.last = pos xs.length := hp
    intro i j hi hj
    simp only [catElems, List.map_cons, List.flatten_cons, List.length_append] at hi hj ih
    rw [catPos, catPos, catSub, hp.sub _ _ (Nat.min_le_right _ _) (Nat.min_le_right _ _), Res.ok_bind, ih (by omega) (by omega), Res.ok_bind, Res.ok.injEq]
    omega

theorem catSize_spec (h : List.Forall₂ PartIs rs ps) : ∀ {i : Nat}, i ≤ (catElems ps).length →
    catSize rs (catPos ps i) = .ok (((catElems ps).length : Int) - i) := by
  induction h with
  | nil => intro i hi; simp at hi; subst hi; rfl
  | cons hp _ ih =>
    rename_i r p rs ps _
    obtain ⟨pos, xs⟩ := p
    obtain ⟨hp, hl⟩ : Indexed r.ops pos xs ∧ r.last = pos xs.length := hp
    intro i hi
    simp only [catElems, List.map_cons, List.flatten_cons, List.length_append] at hi ih ⊢
    rw [catPos, catSize, hl, hp.sub _ _ (Nat.le_refl _) (Nat.min_le_right _ _), Res.ok_bind, ih (by omega), Res.ok_bind, Res.ok.injEq]
    omega

theorem catCmp_spec (h : List.Forall₂ PartIs rs ps) : ∀ {i j : Nat}, i ≤ (catElems ps).length → j ≤ (catElems ps).length →
    catCmp rs (catPos ps i) (catPos ps j) = .ok (compare i j) := by
  induction h with
  | nil => intro i j hi hj; simp at hi hj; subst hi; subst hj; rfl
  | cons hp _ ih =>
    rename_i r p rs ps _
    obtain ⟨pos, xs⟩ := p
    obtain ⟨hp, -⟩ : Indexed r.ops pos xs ∧ r.last = pos xs.length := hp
    intro i j hi hj
    simp only [catElems, List.map_cons, List.flatten_cons, List.length_append] at hi hj ih
    rw [catPos, catPos, catCmp, hp.cmp _ _ (Nat.min_le_right _ _) (Nat.min_le_right _ _), Res.ok_bind, ih (by omega) (by omega)]
    simp only [Nat.compare_eq_ite_lt]
    split_ifs <;> first | rfl | omega | simp_all

theorem catAdd_spec (h : List.Forall₂ PartIs rs ps) : ∀ {i j : Nat}, i ≤ j → j ≤ (catElems ps).length →
    catAdd rs (catPos ps i) ((j : Int) - i) = .ok (catPos ps j) := by
  induction h with
  | nil => intro i j hi hj; rfl
  | cons hp _ ih =>
    rename_i r p rs ps _
    obtain ⟨pos, xs⟩ := p
    obtain ⟨hp, hl⟩ : Indexed r.ops pos xs ∧ r.last = pos xs.length := hp
    intro i j hij hj
    simp only [catElems, List.map_cons, List.flatten_cons, List.length_append] at hj ih
    have e : min (((xs.length : Nat) : Int) - (min i xs.length : Nat)) ((j : Int) - i) = ((min j xs.length : Nat) : Int) - (min i xs.length : Nat) := by omega
    rw [catPos, catPos, catAdd, hl, hp.sub _ _ (Nat.le_refl _) (Nat.min_le_right _ _), Res.ok_bind]
    dsimp only
    rw [e, hp.add _ _ (Nat.min_le_right _ _) (Nat.min_le_right _ _), Res.ok_bind]
    have e2 : (j : Int) - i - (((min j xs.length : Nat) : Int) - (min i xs.length : Nat)) = ((j - xs.length : Nat) : Int) - (i - xs.length : Nat) := by omega
    rw [e2, ih (by omega) (by omega), Res.ok_bind]

theorem catNext_spec (h : List.Forall₂ PartIs rs ps) : ∀ {i : Nat}, i < (catElems ps).length →
    catNext (rs.map (·.ops.toRng)) (catPos ps i) = .ok (catPos ps (i + 1)) := by
  induction h with
  | nil => intro i hi; simp at hi
  | cons hp _ ih =>
    rename_i r p rs ps _
    obtain ⟨pos, xs⟩ := p
    obtain ⟨hp, hl⟩ : Indexed r.ops pos xs ∧ r.last = pos xs.length := hp
    intro i hi
    simp only [catElems, List.map_cons, List.flatten_cons, List.length_append] at hi ih ⊢
    rw [catPos, catPos, catNext, hp.atEnd _ (Nat.min_le_right _ _), Res.ok_bind]
    by_cases e : i < xs.length
    · rw [if_neg (by simp; omega), hp.next _ (by omega), Res.ok_bind, show min (i + 1) xs.length = min i xs.length + 1 by omega,
        show i + 1 - xs.length = i - xs.length by omega]
    · rw [if_pos (by simp; omega), ih (by omega), Res.ok_bind, show min (i + 1) xs.length = min i xs.length by omega,
        show i + 1 - xs.length = i - xs.length + 1 by omega]

theorem catDeref_spec (h : List.Forall₂ PartIs rs ps) : ∀ {i : Nat} (hi : i < (catElems ps).length),
    catDeref (rs.map (·.ops.toRng)) (catPos ps i) = .ok (catElems ps)[i] := by
  induction h with
  | nil => intro i hi; simp at hi
  | cons hp hr ih =>
    rename_i r p rs ps
    obtain ⟨pos, xs⟩ := p
    obtain ⟨hp, hl⟩ : Indexed r.ops pos xs ∧ r.last = pos xs.length := hp
    intro i hi
    have hi' := hi
    simp only [catElems, List.map_cons, List.flatten_cons, List.length_append] at hi' ih ⊢
    cases hr with
    | nil =>
      have hlt : i < xs.length := by simpa using hi'
      simp only [List.map_nil, catPos, catDeref, List.flatten_nil, List.append_nil]
      rw [show min i xs.length = i by omega, hp.deref i hlt]
    | cons hq hr =>
      rw [List.map_cons, catPos, catPos, catDeref, hp.atEnd _ (Nat.min_le_right _ _), Res.ok_bind]
      · by_cases e : i < xs.length
        · rw [if_pos (by simp; omega), List.getElem_append_left e]
          simp only [show min i xs.length = i by omega]
          exact hp.deref i e
        · rw [if_neg (by simp; omega), List.getElem_append_right (by omega)]
          exact ih (by omega)
      · intro h; cases h

/-- The iterators are those of the concatenation: all operations are as for the positions in it, and the end is the last of them. -/
theorem C49_concatenate_view_random_access (h : List.Forall₂ PartIs rs ps) :
    catPos ps 0 = ps.map (fun p => p.1 0) ∧ catEnd rs (catPos ps 0) = .ok (catPos ps (catElems ps).length) ∧
    ForwardIndexed (concatViewRA rs (catPos ps (catElems ps).length)) (catPos ps) (catElems ps) ∧
    ∀ i, i ≤ (catElems ps).length → catSize rs (catPos ps i) = .ok (((catElems ps).length : Int) - i) := by
  have hadd : ∀ i j, i ≤ j → j ≤ (catElems ps).length → catAddOffset rs (catPos ps i) ((j : Int) - i) = .ok (catPos ps j) := by
    intro i j hij hj
    rw [catAddOffset, if_neg (by omega), catAdd_spec h hij hj]
  refine ⟨?_, ?_, ⟨⟨?_, ?_, ?_, ?_⟩, hadd, fun i j hi hj => catSub_spec h hi hj, fun i j hi hj => catCmp_spec h hi hj⟩, fun i hi => catSize_spec h hi⟩
  · clear h hadd
    induction ps with
    | nil => rfl
    | cons p ps ih => rw [catPos, Nat.zero_sub, Nat.zero_min, ih]; rfl
  · rw [catEnd, catSize_spec h (by omega), Res.ok_bind]
    exact hadd 0 _ (by omega) (by omega)
  · intro i hi; exact catEq_spec h hi (Nat.le_refl _)
  · intro i hi; exact catDeref_spec h hi
  · intro i hi; exact catNext_spec h hi
  · intro i j hi hj; exact catEq_spec h hi hj

/-! ## Examples -/

example :
    let R := Range.concatenateView [memAsRange exMem 0 2 true, memAsRange exMem 2 2 true, memAsRange exMem 4 5 true]
    forEach R.ops 9 R.first = some (.ok [3, 1, 5]) ∧ R.size? = some 3 := by
  decide +kernel

example : catAddOffset [⟨memRange exMem 0 2, 2⟩, ⟨memRange exMem 2 2, 2⟩, ⟨memRange exMem 3 5, 5⟩] [0, 2, 3] 3 = .ok [2, 2, 4] := by decide +kernel

example : List.Forall₂ PartIs [⟨memRange exMem 0 5, 5⟩, ⟨memRange exMem 0 5, 5⟩] [((0 + ·), [3, 1, 4, 1, 5]), ((0 + ·), [3, 1, 4, 1, 5])] :=
  .cons ⟨memRange_indexed exMem_seg, rfl⟩ (.cons ⟨memRange_indexed exMem_seg, rfl⟩ .nil)

end Verif.Views
