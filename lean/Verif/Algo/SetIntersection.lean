import Verif.Algo.Merge

/-!
# The pairwise intersection of sorted ranges (C45)

`containers/algorithms/set.cpp`. The elements of both ranges have the same type here; ranges of different types that the comparison
accepts are the case of a type that has the elements of both.
-/

namespace Verif.Algo

variable {α : Type}

/-! ## The model -/

/-- A comparison that says which of the orders holds, or whether the first element is less. -/
inductive Compare (α : Type)
  | three (cmp : α → α → Ordering)
  | less (lt : α → α → Bool)

/-- `less_to_compare` (`set.cpp` 28-41). -/
def lessToCompare : Compare α → α → α → Ordering
  | .three cmp, l, r => cmp l r
  | .less lt, l, r => if lt l r then .lt else if lt r l then .gt else .eq

/-- `find_first_matching` (`set.cpp` 53-69). -/
def findFirstMatching (c : Compare α) (m : Mem α) (last1 last2 : Nat) : Nat → Nat → Nat → Option (Nat × Nat)
  | 0, _, _ => none
  | f + 1, it1, it2 =>
    if it1 ≠ last1 ∧ it2 ≠ last2 then do
      let x ← m it1
      let y ← m it2
      match lessToCompare c x y with
      | .lt => findFirstMatching c m last1 last2 f (it1 + 1) it2
      | .gt => findFirstMatching c m last1 last2 f it1 (it2 + 1)
      | .eq => some (it1, it2)
    else some (last1, last2)

/-- The order that `is_sorted` uses (`set.cpp` 150-155). -/
def Compare.lt : Compare α → α → α → Bool
  | .three cmp, l, r => cmp l r == .lt
  | .less lt, l, r => lt l r

/-- The constructor checks that the ranges are sorted, and the beginning of the view is the first match (`set.cpp` 143-171). -/
def intersectionBegin (c : Compare α) (m : Mem α) (first1 last1 first2 last2 : Nat) : Option (Nat × Nat) := do
  let b1 ← isSorted m c.lt first1 (last1 - first1)
  let b2 ← isSorted m c.lt first2 (last2 - first2)
  if b1 ∧ b2 then findFirstMatching c m last1 last2 ((last1 - first1) + (last2 - first2) + 1) first1 first2 else none

/-- The increment of the iterator (`set.cpp` 98-100). -/
def intersectionNext (c : Compare α) (m : Mem α) (last1 last2 : Nat) (it : Nat × Nat) : Option (Nat × Nat) :=
  findFirstMatching c m last1 last2 ((last1 - (it.1 + 1)) + (last2 - (it.2 + 1)) + 1) (it.1 + 1) (it.2 + 1)

/-- The elements that a loop over the view sees from the iterator on (`set.cpp` 102-108, 122-130, 173-178). -/
def intersectionLoop (c : Compare α) (m : Mem α) (last1 last2 : Nat) : Nat → Nat × Nat → Option (List (α × α))
  | 0, _ => none
  | f + 1, it =>
    if it.1 = last1 then some []
    else do
      let x ← m it.1
      let y ← m it.2
      let next ← intersectionNext c m last1 last2 it
      let rest ← intersectionLoop c m last1 last2 f next
      some ((x, y) :: rest)

/-- `for (auto && pair : set_intersection_pair(r1, r2, compare))`. -/
def intersection (c : Compare α) (m : Mem α) (first1 last1 first2 last2 : Nat) : Option (List (α × α)) := do
  let it ← intersectionBegin c m first1 last1 first2 last2
  intersectionLoop c m last1 last2 (last1 - first1 + 1) it

/-! ## Specification -/

/-- The pairs are in order, and those of a group of equivalent elements are the first element of the group in the first range with the first
one in the second range, the second one with the second one and so on. -/
structure IsIntersection (lt : α → α → Bool) (xs ys : List α) (ps : List (α × α)) : Prop where
  sorted : Sorted lt (ps.map (·.1))
  groups : ∀ v, ps.filter (fun p => equiv lt v p.1) = (xs.filter (equiv lt v)).zip (ys.filter (equiv lt v))

/-- The comparison is that of a strict weak order. -/
def Compare.Lawful (c : Compare α) : Prop :=
  StrictWeak c.lt ∧ ∀ cmp, c = .three cmp → ∀ x y, cmp x y = .gt ↔ cmp y x = .lt

/-! ## Proof -/

theorem Compare.Lawful.cases {c : Compare α} (h : c.Lawful) (x y : α) :
    (lessToCompare c x y = .lt ∧ c.lt x y = true) ∨ (lessToCompare c x y = .gt ∧ c.lt y x = true) ∨
      (lessToCompare c x y = .eq ∧ equiv c.lt x y = true) := by
  rw [equiv_iff]
  cases c with
  | three cmp =>
    have h2 := h.2 cmp rfl
    simp only [lessToCompare, Compare.lt, beq_iff_eq, beq_eq_false_iff_ne]
    rcases hc : cmp x y with _ | _ | _
    · exact .inl ⟨rfl, rfl⟩
    · refine .inr (.inr ⟨rfl, by simp, fun hc' => ?_⟩)
      rw [(h2 x y).2 hc'] at hc
      cases hc
    · exact .inr (.inl ⟨rfl, (h2 x y).1 hc⟩)
  | less lt =>
    simp only [lessToCompare, Compare.lt]
    by_cases h1 : lt x y = true
    · exact .inl ⟨if_pos h1, h1⟩
    · rw [if_neg h1]
      by_cases h2 : lt y x = true
      · exact .inr (.inl ⟨if_pos h2, h2⟩)
      · exact .inr (.inr ⟨if_neg h2, by simpa using h1, by simpa using h2⟩)

/-- The pairs of matching elements that the loop finds. -/
def matchList (c : Compare α) : List α → List α → List (α × α)
  | [], _ => []
  | _, [] => []
  | x :: xs, y :: ys =>
    match lessToCompare c x y with
    | .lt => matchList c xs (y :: ys)
    | .gt => matchList c (x :: xs) ys
    | .eq => (x, y) :: matchList c xs ys
  termination_by xs ys => xs.length + ys.length

theorem matchList_sublist (c : Compare α) (xs ys : List α) : ((matchList c xs ys).map (·.1)).Sublist xs := by
  fun_induction matchList c xs ys with
  | case1 | case2 => exact List.nil_sublist _
  | case3 x xs y ys h ih => exact ih.trans (List.sublist_cons_self _ _)
  | case4 x xs y ys h ih => exact ih
  | case5 x xs y ys h ih => exact List.Sublist.cons_cons _ ih

theorem matchList_groups {c : Compare α} (h : c.Lawful) {xs ys : List α} (hx : Sorted c.lt xs) (hy : Sorted c.lt ys) (v : α) :
    (matchList c xs ys).filter (fun p => equiv c.lt v p.1) = (xs.filter (equiv c.lt v)).zip (ys.filter (equiv c.lt v)) := by
  have hw := h.1
  have hne : ∀ {x y : α} {ys : List α}, c.lt x y = true → Sorted c.lt (y :: ys) → equiv c.lt v x = true → (y :: ys).filter (equiv c.lt v) = [] := by
    intro x y ys hxy hs hv
    rw [List.filter_eq_nil_iff]
    intro z hz hc
    have hxz : c.lt x z = true := by
      rcases List.mem_cons.1 hz with rfl | hz
      · exact hxy
      · exact hw.lt_of_lt_of_le hxy ((List.pairwise_cons.1 hs).1 z hz)
    have := hw.lt_of_le_of_lt (a := v) (equiv_iff.1 hv).2 hxz
    rw [(equiv_iff.1 hc).1] at this
    cases this
  fun_induction matchList c xs ys with
  | case1 => simp
  | case2 => simp
  | case3 x xs y ys hc ih =>
    rw [ih (List.pairwise_cons.1 hx).2 hy]
    have hxy : c.lt x y = true := by rcases h.cases x y with h | h | h <;> simp_all
    by_cases hv : equiv c.lt v x = true
    · rw [hne hxy hy hv]; simp
    · rw [List.filter_cons_of_neg hv]
  | case4 x xs y ys hc ih =>
    rw [ih hx (List.pairwise_cons.1 hy).2]
    have hxy : c.lt y x = true := by rcases h.cases x y with h | h | h <;> simp_all
    by_cases hv : equiv c.lt v y = true
    · rw [hne hxy hx hv]; simp
    · rw [List.filter_cons_of_neg hv (l := ys)]
  | case5 x xs y ys hc ih =>
    have ih := ih (List.pairwise_cons.1 hx).2 (List.pairwise_cons.1 hy).2
    have hxy : equiv c.lt x y = true := by rcases h.cases x y with h | h | h <;> simp_all
    have hiff : equiv c.lt v x = equiv c.lt v y := by
      rw [Bool.eq_iff_iff, equiv_iff, equiv_iff]
      obtain ⟨e1, e2⟩ := equiv_iff.1 hxy
      exact ⟨fun ⟨a, b⟩ => ⟨hw.negTrans (a := y) (b := x) (c := v) e1 a, hw.negTrans (a := v) (b := x) (c := y) b e2⟩,
        fun ⟨a, b⟩ => ⟨hw.negTrans (a := x) (b := y) (c := v) e2 a, hw.negTrans (a := v) (b := y) (c := x) b e1⟩⟩
    by_cases hv : equiv c.lt v x = true
    · rw [List.filter_cons_of_pos (by exact hv), List.filter_cons_of_pos hv, List.filter_cons_of_pos (by rw [← hiff]; exact hv), List.zip_cons_cons, ih]
    · rw [List.filter_cons_of_neg (by exact hv), List.filter_cons_of_neg hv, List.filter_cons_of_neg (by rw [← hiff]; exact hv), ih]

open Mem in
theorem findFirstMatching_spec {c : Compare α} {m : Mem α} {last1 last2 : Nat} : ∀ {f : Nat} {xs ys : List α} {it1 it2 : Nat},
    xs.length + ys.length < f → Seg m it1 xs → Seg m it2 ys → last1 = it1 + xs.length → last2 = it2 + ys.length →
    (matchList c xs ys = [] ∧ findFirstMatching c m last1 last2 f it1 it2 = some (last1, last2)) ∨
      ∃ p1 x xs' p2 y ys', xs = p1 ++ x :: xs' ∧ ys = p2 ++ y :: ys' ∧ matchList c xs ys = (x, y) :: matchList c xs' ys' ∧
        findFirstMatching c m last1 last2 f it1 it2 = some (it1 + p1.length, it2 + p2.length)
  | 0, _, _, _, _, hf, _, _, _, _ => by omega
  | f + 1, [], ys, it1, it2, _, _, _, h1, _ => .inl ⟨by simp [matchList], by rw [findFirstMatching, if_neg (by simp [h1])]⟩
  | f + 1, x :: xs, [], it1, it2, _, _, _, _, h2 => .inl ⟨by simp [matchList], by rw [findFirstMatching, if_neg (by simp [h2])]⟩
  | f + 1, x :: xs, y :: ys, it1, it2, hf, hx, hy, h1, h2 => by
    obtain ⟨hx0, hx1⟩ := seg_cons.1 hx
    obtain ⟨hy0, hy1⟩ := seg_cons.1 hy
    simp only [List.length_cons] at hf h1 h2
    rw [findFirstMatching, if_pos (by omega), matchList]
    simp only [hx0, hy0, Option.bind_eq_bind, Option.bind_some]
    rcases hc : lessToCompare c x y with _ | _ | _
    · rcases findFirstMatching_spec (c := c) (f := f) (by rw [List.length_cons]; omega) hx1 hy (last1 := last1) (last2 := last2) (by omega)
        (by rw [List.length_cons]; omega) with h | ⟨p1, x', xs', p2, y', ys', e1, e2, e3, e4⟩
      · exact .inl h
      · refine .inr ⟨x :: p1, x', xs', p2, y', ys', by rw [e1]; rfl, e2, e3, ?_⟩
        rw [e4, List.length_cons, Option.some.injEq, Prod.mk.injEq]; omega
    · exact .inr ⟨[], x, xs, [], y, ys, rfl, rfl, rfl, rfl⟩
    · rcases findFirstMatching_spec (c := c) (f := f) (by rw [List.length_cons]; omega) hx hy1 (last1 := last1) (last2 := last2)
        (by rw [List.length_cons]; omega) (by omega) with h | ⟨p1, x', xs', p2, y', ys', e1, e2, e3, e4⟩
      · exact .inl h
      · refine .inr ⟨p1, x', xs', y :: p2, y', ys', e1, by rw [e2]; rfl, e3, ?_⟩
        rw [e4, List.length_cons, Option.some.injEq, Prod.mk.injEq]; omega

open Mem in
theorem intersectionLoop_spec {c : Compare α} {m : Mem α} {last1 last2 : Nat} : ∀ {f g : Nat} {xs ys : List α} {it1 it2 : Nat},
    xs.length < f → xs.length + ys.length < g → Seg m it1 xs → Seg m it2 ys → last1 = it1 + xs.length → last2 = it2 + ys.length →
    (findFirstMatching c m last1 last2 g it1 it2).bind (intersectionLoop c m last1 last2 f) = some (matchList c xs ys)
  | 0, _, _, _, _, _, hf, _, _, _, _, _ => by omega
  | f + 1, g, xs, ys, it1, it2, hf, hg, hx, hy, h1, h2 => by
    rcases findFirstMatching_spec (c := c) hg hx hy h1 h2 with ⟨e1, e2⟩ | ⟨p1, x, xs', p2, y, ys', e1, e2, e3, e4⟩
    · rw [e2, Option.bind_some, intersectionLoop, if_pos rfl, e1]
    · rw [e4, Option.bind_some, intersectionLoop, e3]
      rw [e1] at hx h1 hf
      rw [e2] at hy h2
      obtain ⟨-, hx'⟩ := seg_append.1 hx
      obtain ⟨-, hy'⟩ := seg_append.1 hy
      obtain ⟨hx0, hx1⟩ := seg_cons.1 hx'
      obtain ⟨hy0, hy1⟩ := seg_cons.1 hy'
      simp only [List.length_append, List.length_cons] at h1 h2 hf
      rw [if_neg (by dsimp only; omega)]
      dsimp only
      rw [hx0, hy0]
      simp only [Option.bind_eq_bind, Option.bind_some]
      have ih := intersectionLoop_spec (c := c) (f := f) (g := (last1 - (it1 + p1.length + 1)) + (last2 - (it2 + p2.length + 1)) + 1) (by omega) (by omega)
        hx1 hy1 (last1 := last1) (last2 := last2) (by omega) (by omega)
      rw [intersectionNext]
      dsimp only
      obtain ⟨it, q1, q2⟩ := Option.bind_eq_some_iff.1 ih
      rw [q1]
      simp only [Option.bind_some, q2]

/-- The view visits the intersection of two sorted ranges. -/
theorem C45_set_intersection {c : Compare α} (h : c.Lawful) {m : Mem α} {xs ys : List α} {first1 first2 : Nat} (hx : m.Seg first1 xs)
    (hy : m.Seg first2 ys) (hsx : Sorted c.lt xs) (hsy : Sorted c.lt ys) :
    ∃ ps, intersection c m first1 (first1 + xs.length) first2 (first2 + ys.length) = some ps ∧ IsIntersection c.lt xs ys ps := by
  refine ⟨matchList c xs ys, ?_, hsx.sublist (matchList_sublist c xs ys), matchList_groups h hsx hsy⟩
  obtain ⟨b1, e1, i1⟩ := C38_is_sorted h.1 hx
  obtain ⟨b2, e2, i2⟩ := C38_is_sorted h.1 hy
  have hb1 := i1.2 hsx
  have hb2 := i2.2 hsy
  subst hb1 hb2
  rw [intersection, intersectionBegin]
  simp only [Nat.add_sub_cancel_left, e1, e2, Option.bind_eq_bind, Option.bind_some, and_self, if_true]
  exact intersectionLoop_spec (by omega) (by omega) hx hy rfl rfl

/-- If no range has equivalent elements, the pairs are exactly those of equivalent elements. -/
theorem C45_set_intersection_mem {c : Compare α} (h : c.Lawful) {m : Mem α} {xs ys : List α} {first1 first2 : Nat} (hx : m.Seg first1 xs)
    (hy : m.Seg first2 ys) (hsx : xs.Pairwise fun a b => c.lt a b = true) (hsy : ys.Pairwise fun a b => c.lt a b = true) :
    ∃ ps, intersection c m first1 (first1 + xs.length) first2 (first2 + ys.length) = some ps ∧
      ∀ x y, (x, y) ∈ ps ↔ x ∈ xs ∧ y ∈ ys ∧ equiv c.lt x y = true := by
  obtain ⟨ps, e, hp⟩ := C45_set_intersection h hx hy (hsx.imp fun hab => h.1.asymm hab) (hsy.imp fun hab => h.1.asymm hab)
  refine ⟨ps, e, fun x y => ?_⟩
  have hself : ∀ a, equiv c.lt a a = true := fun a => equiv_iff.2 ⟨h.1.irrefl a, h.1.irrefl a⟩
  have hone : ∀ {zs : List α} {v z : α}, zs.Pairwise (fun a b => c.lt a b = true) → z ∈ zs → equiv c.lt v z = true → zs.filter (equiv c.lt v) = [z] := by
    intro zs v z hs hz hv
    induction zs with
    | nil => cases hz
    | cons w zs ih =>
      obtain ⟨hw, hs'⟩ := List.pairwise_cons.1 hs
      rcases List.mem_cons.1 hz with rfl | hz
      · rw [List.filter_cons_of_pos hv, List.filter_eq_nil_iff.2]
        intro y hy hc
        have := h.1.lt_of_le_of_lt (a := v) (equiv_iff.1 hv).2 (hw y hy)
        rw [(equiv_iff.1 hc).1] at this; cases this
      · rw [List.filter_cons_of_neg, ih hs' hz]
        intro hc
        have := h.1.lt_of_le_of_lt (a := v) (equiv_iff.1 hc).2 (hw z hz)
        rw [(equiv_iff.1 hv).1] at this; cases this
  constructor
  · intro hxy
    have : (x, y) ∈ ps.filter (fun p => equiv c.lt x p.1) := List.mem_filter.2 ⟨hxy, hself x⟩
    rw [hp.groups x] at this
    obtain ⟨h1, h2⟩ := List.of_mem_zip this
    exact ⟨(List.mem_filter.1 h1).1, (List.mem_filter.1 h2).1, (List.mem_filter.1 h2).2⟩
  · rintro ⟨h1, h2, h3⟩
    have := hp.groups x
    rw [hone hsx h1 (hself x), hone hsy h2 h3] at this
    have hm : (x, y) ∈ ps.filter (fun p => equiv c.lt x p.1) := by rw [this]; simp
    exact (List.mem_filter.1 hm).1

example : (Compare.three (compare : Nat → Nat → Ordering)).Lawful ∧ (Compare.less fun a b : Nat => decide (a < b)).Lawful := by
  refine ⟨⟨⟨?_, ?_⟩, ?_⟩, ⟨⟨?_, ?_⟩, ?_⟩⟩
  · intro a b h; simp [Compare.lt, Nat.compare_eq_lt] at *; omega
  · intro a b c; simp [Compare.lt, Nat.compare_eq_lt]; omega
  · rintro _ ⟨⟩ x y; rw [Nat.compare_eq_gt, Nat.compare_eq_lt]
  · intro a b h; simp [Compare.lt] at *; omega
  · intro a b c; simp [Compare.lt]; omega
  · rintro _ ⟨⟩

example : intersection (.three compare) (fun a => [1, 2, 2, 4, 7, 2, 2, 2, 3, 4, 8][a]?) 0 5 5 11 = some [(2, 2), (2, 2), (4, 4)] := by decide +kernel

end Verif.Algo
