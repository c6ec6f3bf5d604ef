import Verif.Algo.Merge
import Verif.Algo.Search

/-!
# unique and merging sets (C44)

`containers/algorithms/unique.cpp`. A cell of memory holds an object that has a value or that has been moved from. Values are read
only from the former. Iterators are addresses. Assignments do not throw.
-/

namespace Verif.Algo

variable {α : Type}

/-! ## Objects that can be moved from -/

/-- An object with a value, or one that was moved from. -/
inductive Obj (α : Type)
  | val (a : α)
  | moved

/-- The values of the objects. -/
def vals (m : Mem (Obj α)) : Mem α := fun a =>
  match m a with
  | some (.val v) => some v
  | _ => none

/-- What assigning from an object does to it. `keep`: it is a copy, or the type is trivially copyable. `clear`: the object loses its
value, but assigning an object to itself has no effect. `clearSelf`: the object loses its value even then, as is usual for
types of the standard library, such as `std::vector`. -/
inductive MoveKind
  | keep
  | clear
  | clearSelf
  deriving DecidableEq

/-- `*dst = *src` or `*dst = std::move(*src)`. -/
def assignFrom (mk : MoveKind) (m : Mem (Obj α)) (dst src : Nat) : Option (Mem (Obj α)) :=
  match m src, m dst with
  | some (.val v), some _ => some (match mk with
    | .keep => upd m dst (some (.val v))
    | .clear => upd (upd m src (some .moved)) dst (some (.val v))
    | .clearSelf => upd (upd m dst (some (.val v))) src (some .moved))
  | _, _ => none

/-! ## The model -/

/-- `unique_common` (`unique.cpp` 42-52) with `k` elements of the input left, from `it` on. -/
def uniqueCommon (mk : MoveKind) (eq : α → α → Bool) : Nat → Mem (Obj α) → Nat → Nat → Option (Mem (Obj α) × Nat)
  | 0, m, _, out => some (m, out + 1)
  | k + 1, m, it, out => do
    let o ← vals m out
    let x ← vals m it
    if eq o x then uniqueCommon mk eq k m (it + 1) out
    else do
      let m ← assignFrom mk m (out + 1) it
      uniqueCommon mk eq k m (it + 1) (out + 1)

/-- `unique_copy` (`unique.cpp` 54-65). -/
def uniqueCopy (mk : MoveKind) (eq : α → α → Bool) (m : Mem (Obj α)) (first last out : Nat) : Option (Mem (Obj α) × Nat) :=
  if first = last then some (m, out)
  else do
    let m ← assignFrom mk m out first
    uniqueCommon mk eq (last - first - 1) m (first + 1) out

/-- The loop of `find_first_equal` (`unique.cpp` 75-80), with `k` elements left. -/
def findFirstEqualLoop (eq : α → α → Bool) (m : Mem α) : Nat → Nat → Nat → Option Nat
  | 0, _, first => some first
  | k + 1, previous, first => do
    let x ← m previous
    let y ← m first
    if eq x y then some first else findFirstEqualLoop eq m k first (first + 1)

/-- `find_first_equal` (`unique.cpp` 68-82). -/
def findFirstEqual (eq : α → α → Bool) (m : Mem α) (first last : Nat) : Option Nat :=
  if first = last then some first else findFirstEqualLoop eq m (last - first - 1) first (first + 1)

/-- `unique` (`unique.cpp` 85-101). -/
def unique (mk : MoveKind) (eq : α → α → Bool) (m : Mem (Obj α)) (first last : Nat) : Option (Mem (Obj α) × Nat) := do
  let e ← findFirstEqual eq (vals m) first last
  if e = last then some (m, e)
  else do
    let v ← vals m e
    let other ← findIf (vals m) (fun x => !eq v x) (e + 1) last
    if other = last then some (m, e)
    else do
      let m ← assignFrom mk m e other
      uniqueCommon mk eq (last - (other + 1)) m (other + 1) e

/-- `unique_copy_less` (`unique.cpp` 103-106). -/
def uniqueCopyLess (mk : MoveKind) (lt : α → α → Bool) := uniqueCopy mk fun a b => !lt a b

/-- `unique_less` (`unique.cpp` 107-110). -/
def uniqueLess (mk : MoveKind) (lt : α → α → Bool) := unique mk fun a b => !lt a b

/-- `next_greater` (`unique.cpp` 113-116). -/
def nextGreater (lt : α → α → Bool) (m : Mem α) (first last : Nat) (x : α) : Option Nat := findIf m (fun v => lt x v) first last

/-- `unique_merge_copy` (`unique.cpp` 119-135). -/
def uniqueMergeCopy (mk : MoveKind) (lt : α → α → Bool) : Nat → Mem (Obj α) → Nat → Nat → Nat → Nat → Nat → Option (Mem (Obj α) × Nat)
  | 0, _, _, _, _, _, _ => none
  | f + 1, m, first1, last1, first2, last2, out =>
    if first1 ≠ last1 ∧ first2 ≠ last2 then do
      let a ← vals m first1
      let b ← vals m first2
      let m ← assignFrom mk m out (if lt b a then first2 else first1)
      let o ← vals m out
      let i ← nextGreater lt (vals m) (if lt b a then first1 else first1 + 1) last1 o
      let j ← nextGreater lt (vals m) (if lt b a then first2 + 1 else first2) last2 o
      uniqueMergeCopy mk lt f m i last1 j last2 (out + 1)
    else if first1 ≠ last1 then uniqueCopyLess mk lt m first1 last1 out
    else uniqueCopyLess mk lt m first2 last2 out

/-- The construction of `temp` from a range of elements that are moved (`unique.cpp` 154, 188-191), at new addresses from `dst` on. -/
def moveConstruct (mk : MoveKind) (m : Mem (Obj α)) (src dst : Nat) : Nat → Option (Mem (Obj α))
  | 0 => some m
  | n + 1 =>
    match m src, m dst with
    | some (.val v), none =>
      moveConstruct mk (match mk with
        | .keep => upd m dst (some (.val v))
        | _ => upd (upd m dst (some (.val v))) src (some .moved)) (src + 1) (dst + 1) n
    | _, _ => none

/-- The destruction of `temp`. -/
def destroyTemp (m : Mem (Obj α)) (tmp n : Nat) : Mem (Obj α) := fun a => if tmp ≤ a ∧ a < tmp + n then none else m a

/-- The loop of `find_first_to_move` (`unique.cpp` 170-178), with `k` elements before `middle`; returns `before`. The target is the element
after it. -/
def firstToMove (lt : α → α → Bool) (m : Mem α) (middle : Nat) : Nat → Nat → Option Nat
  | 0, before => some before
  | k + 1, before => do
    let mid ← m middle
    let v ← m (before + 1)
    if lt mid v then some before else firstToMove lt m middle k (before + 1)

/-- The assertions of `unique_inplace_merge` (`unique.cpp` 140-145). -/
def inplaceAsserts (lt : α → α → Bool) (m : Mem α) (first middle last : Nat) : Option Unit := do
  let b1 ← isSorted m lt first (middle - first)
  let b2 ← isSorted m lt middle (last - middle)
  let e ← findFirstEqual (fun l r => !lt l r && !lt r l) m first middle
  if b1 ∧ b2 ∧ e = middle then some () else none

/-- Merging with the moved elements in `temp` (`unique.cpp` 154-160, 188-199). -/
def mergeThroughTemp (mk : MoveKind) (lt : α → α → Bool) (tmp : Nat) (m : Mem (Obj α)) (target middle newMiddle last : Nat) : Option (Mem (Obj α) × Nat) := do
  let n := middle - target
  let m ← moveConstruct mk m target tmp n
  let (m, r) ← uniqueMergeCopy mk lt (last - target + 1) m tmp (tmp + n) newMiddle last target
  some (destroyTemp m tmp n, r)

/-- `unique_inplace_merge` (`unique.cpp` 138-200). The elements of `temp` live at `tmp`. That `new_middle` is found before the elements are
moved makes no difference, as the moved ones are not between `middle` and `last` and `before_target`
is not moved. -/
def uniqueInplaceMerge (mk : MoveKind) (lt : α → α → Bool) (tmp : Nat) (m : Mem (Obj α)) (first middle last : Nat) : Option (Mem (Obj α) × Nat) := do
  inplaceAsserts lt (vals m) first middle last
  if first = middle ∨ middle = last then uniqueLess mk lt m first last
  else do
    let a ← vals m first
    let mid ← vals m middle
    if lt mid a then mergeThroughTemp mk lt tmp m first middle middle last
    else do
      let before ← firstToMove lt (vals m) middle (middle - first - 1) first
      if before + 1 = middle then uniqueLess mk lt m before last
      else do
        let v ← vals m before
        let newMiddle ← nextGreater lt (vals m) middle last v
        mergeThroughTemp mk lt tmp m (before + 1) middle newMiddle last

/-! ## Specification -/

/-- The elements that differ from the one before them. -/
def firstOfRuns (eq : α → α → Bool) : List α → List α
  | [] => []
  | [x] => [x]
  | x :: y :: ys => x :: (if eq x y then (firstOfRuns eq (y :: ys)).tail else firstOfRuns eq (y :: ys))

/-- `zs` is strictly increasing and has exactly one element for each group of equivalent elements of `xs`, the first. -/
structure IsUniqued (lt : α → α → Bool) (xs zs : List α) : Prop where
  increasing : zs.Pairwise fun a b => lt a b = true
  covers : ∀ x ∈ xs, ∃ z ∈ zs, equiv lt z x = true
  first : ∀ z ∈ zs, xs.find? (equiv lt z) = some z

/-! ## The functions on lists -/

/-- Elements equal to the last one kept are dropped. -/
def dedupFrom (eq : α → α → Bool) : α → List α → List α
  | _, [] => []
  | o, x :: xs => if eq o x then dedupFrom eq o xs else x :: dedupFrom eq x xs

/-- The first of each group of adjacent equal elements. -/
def dedup (eq : α → α → Bool) : List α → List α
  | [] => []
  | x :: xs => x :: dedupFrom eq x xs

/-- The elements from the first one that satisfies `p` on. -/
def dropTo (p : α → Bool) (xs : List α) : List α := xs.drop (xs.findIdx p)

theorem dropTo_length_le (p : α → Bool) (xs : List α) : (dropTo p xs).length ≤ xs.length := by rw [dropTo, List.length_drop]; omega

/-- The merge of two sorted lists with one element of each group of equivalent ones. -/
def mergeU (lt : α → α → Bool) : List α → List α → List α
  | [], r2 => dedup (fun a b => !lt a b) r2
  | r1, [] => dedup (fun a b => !lt a b) r1
  | a :: r1, b :: r2 =>
    if lt b a then b :: mergeU lt (dropTo (lt b) (a :: r1)) (dropTo (lt b) r2)
    else a :: mergeU lt (dropTo (lt a) r1) (dropTo (lt a) (b :: r2))
  termination_by r1 r2 => r1.length + r2.length
  decreasing_by
  · have h1 := dropTo_length_le (lt b) (a :: r1)
    have h2 := dropTo_length_le (lt b) r2
    simp only [List.length_cons] at *; omega
  · have h1 := dropTo_length_le (lt a) r1
    have h2 := dropTo_length_le (lt a) (b :: r2)
    simp only [List.length_cons] at *; omega

theorem dedupFrom_length (eq : α → α → Bool) : ∀ (o : α) (xs : List α), (dedupFrom eq o xs).length ≤ xs.length
  | _, [] => Nat.le_refl _
  | o, x :: xs => by
    rw [dedupFrom]
    split
    · have := dedupFrom_length eq o xs; rw [List.length_cons]; omega
    · have := dedupFrom_length eq x xs; rw [List.length_cons, List.length_cons]; omega

theorem dedup_length (eq : α → α → Bool) : ∀ xs : List α, (dedup eq xs).length ≤ xs.length
  | [] => Nat.le_refl _
  | x :: xs => by have := dedupFrom_length eq x xs; rw [dedup, List.length_cons, List.length_cons]; omega

theorem mergeU_length (lt : α → α → Bool) : ∀ r1 r2 : List α, (mergeU lt r1 r2).length ≤ r1.length + r2.length := by
  intro r1 r2
  fun_induction mergeU lt r1 r2 with
  | case1 r2 => have := dedup_length (fun a b => !lt a b) r2; omega
  | case2 r1 => have := dedup_length (fun a b => !lt a b) r1; simp only [List.length_nil]; omega
  | case3 a r1 b r2 h ih =>
    have h1 := dropTo_length_le (lt b) (a :: r1)
    have h2 := dropTo_length_le (lt b) r2
    simp only [List.length_cons] at *; omega
  | case4 a r1 b r2 h ih =>
    have h1 := dropTo_length_le (lt a) r1
    have h2 := dropTo_length_le (lt a) (b :: r2)
    simp only [List.length_cons] at *; omega

/-! ### They meet the specification -/

/-- Removing what is equal to the last element that was kept is removing what is equal to the element before. -/
theorem dedupFrom_runs {eq : α → α → Bool} : ∀ {o o' : α} {xs : List α}, (∀ c ∈ xs, eq o c = eq o' c) →
    (∀ a b c, [a, b, c].Sublist (o' :: xs) → eq a b = true → eq a c = eq b c) → dedupFrom eq o xs = (firstOfRuns eq (o' :: xs)).tail
  | o, o', [], _, _ => rfl
  | o, o', x :: xs, hc, hr => by
    rw [dedupFrom, hc x (by simp), firstOfRuns, List.tail_cons]
    have hr' : ∀ a b c, [a, b, c].Sublist (x :: xs) → eq a b = true → eq a c = eq b c :=
      fun a b c hs => hr a b c (hs.trans (List.sublist_cons_self _ _))
    cases hx : eq o' x with
    | true =>
      rw [if_pos rfl, if_pos rfl]
      refine dedupFrom_runs (fun c hcx => ?_) hr'
      rw [hc c (by simp [hcx])]
      exact hr o' x c (by simpa using hcx) hx
    | false =>
      rw [if_neg (by simp), if_neg (by simp), dedupFrom_runs (fun c _ => rfl) hr']
      cases xs <;> rfl

theorem dedup_runs {eq : α → α → Bool} {xs : List α} (hr : ∀ a b c, [a, b, c].Sublist xs → eq a b = true → eq a c = eq b c) :
    dedup eq xs = firstOfRuns eq xs := by
  cases xs with
  | nil => rfl
  | cons x xs =>
    rw [dedup, dedupFrom_runs (fun c _ => rfl) hr]
    cases xs <;> rfl

theorem firstOfRuns_congr {eq eq' : α → α → Bool} : ∀ {xs : List α}, (xs.Pairwise fun a b => eq a b = eq' a b) → firstOfRuns eq xs = firstOfRuns eq' xs
  | [], _ => rfl
  | [x], _ => rfl
  | x :: y :: ys, h => by
    obtain ⟨h1, h2⟩ := List.pairwise_cons.1 h
    rw [firstOfRuns, firstOfRuns, firstOfRuns_congr h2, h1 y (by simp)]

theorem IsUniqued.nil (lt : α → α → Bool) : IsUniqued lt [] [] := ⟨.nil, by simp, by simp⟩

theorem IsUniqued.mem {lt : α → α → Bool} {xs zs : List α} (h : IsUniqued lt xs zs) {z : α} (hz : z ∈ zs) : z ∈ xs :=
  List.mem_of_find?_eq_some (h.first z hz)

theorem IsUniqued.cons {lt : α → α → Bool} (h : StrictWeak lt) {z : α} {xs ys zs : List α} (hu : IsUniqued lt ys zs)
    (hfind : xs.find? (equiv lt z) = some z) (hys : xs.filter (lt z) = ys) (hcov : ∀ x ∈ xs, lt z x = true ∨ equiv lt z x = true) :
    IsUniqued lt xs (z :: zs) := by
  subst hys
  have hgt : ∀ w ∈ zs, lt z w = true := fun w hw => (List.mem_filter.1 (hu.mem hw)).2
  refine ⟨List.pairwise_cons.2 ⟨hgt, hu.increasing⟩, fun x hx => ?_, fun w hw => ?_⟩
  · by_cases hzx : lt z x = true
    · obtain ⟨w, hw, hwx⟩ := hu.covers x (List.mem_filter.2 ⟨hx, hzx⟩)
      exact ⟨w, List.mem_cons_of_mem _ hw, hwx⟩
    · exact ⟨z, by simp, (hcov x hx).resolve_left hzx⟩
  · rcases List.mem_cons.1 hw with rfl | hw
    · exact hfind
    · have := hu.first w hw
      rw [List.find?_filter] at this
      rw [← this]
      congr 1
      funext x
      cases hwx : equiv lt w x with
      | false => simp
      | true =>
        have : lt z x = true := h.lt_of_lt_of_le (hgt w hw) ((equiv_iff).1 hwx).2
        simp [this]

theorem equiv_self {lt : α → α → Bool} (h : StrictWeak lt) (x : α) : equiv lt x x = true := equiv_iff.2 ⟨h.irrefl x, h.irrefl x⟩

/-- From an element on that is greater, all are. -/
theorem filter_dropTo {lt : α → α → Bool} (h : StrictWeak lt) (z : α) : ∀ {xs : List α}, Sorted lt xs → xs.filter (lt z) = dropTo (lt z) xs
  | [], _ => rfl
  | x :: xs, hs => by
    obtain ⟨hx, hs'⟩ := List.pairwise_cons.1 hs
    rw [dropTo, List.findIdx_cons]
    cases hzx : lt z x with
    | true =>
      rw [List.filter_cons_of_pos hzx, List.filter_eq_self.2 fun y hy => h.lt_of_lt_of_le hzx (hx y hy)]
      rfl
    | false =>
      rw [List.filter_cons_of_neg (by simp [hzx]), filter_dropTo h z hs']
      rfl

theorem dropTo_sorted {lt : α → α → Bool} {p : α → Bool} {xs : List α} (hs : Sorted lt xs) : Sorted lt (dropTo p xs) :=
  List.Pairwise.sublist (List.drop_sublist _ _) hs

theorem dedupFrom_uniqued {lt : α → α → Bool} (h : StrictWeak lt) : ∀ {o : α} {xs : List α}, Sorted lt (o :: xs) →
    IsUniqued lt (xs.filter (lt o)) (dedupFrom (fun a b => !lt a b) o xs)
  | o, [], _ => .nil lt
  | o, x :: xs, hs => by
    obtain ⟨ho, hs'⟩ := List.pairwise_cons.1 hs
    obtain ⟨hx, hs''⟩ := List.pairwise_cons.1 hs'
    rw [dedupFrom]
    cases hox : lt o x with
    | false =>
      rw [if_pos (by simp), List.filter_cons_of_neg (by simp [hox])]
      exact dedupFrom_uniqued h (List.pairwise_cons.2 ⟨fun y hy => ho y (by simp [hy]), hs''⟩)
    | true =>
      rw [if_neg (by simp), List.filter_cons_of_pos hox, List.filter_eq_self.2 fun y hy => h.lt_of_lt_of_le hox (hx y hy)]
      refine (dedupFrom_uniqued h hs').cons h (by rw [List.find?_cons_of_pos (equiv_self h x)])
        (by rw [List.filter_cons_of_neg (by simp [h.irrefl x])]) fun y hy => ?_
      rcases List.mem_cons.1 hy with rfl | hy
      · exact .inr (equiv_self h y)
      · cases hxy : lt x y with
        | true => exact .inl rfl
        | false => exact .inr (equiv_iff.2 ⟨hxy, hx y hy⟩)

theorem dedup_uniqued {lt : α → α → Bool} (h : StrictWeak lt) {xs : List α} (hs : Sorted lt xs) :
    IsUniqued lt xs (dedup (fun a b => !lt a b) xs) := by
  cases xs with
  | nil => exact .nil lt
  | cons x xs =>
    obtain ⟨hx, -⟩ := List.pairwise_cons.1 hs
    refine (dedupFrom_uniqued h hs).cons h (by rw [List.find?_cons_of_pos (equiv_self h x)])
      (by rw [List.filter_cons_of_neg (by simp [h.irrefl x])]) fun y hy => ?_
    rcases List.mem_cons.1 hy with rfl | hy
    · exact .inr (equiv_self h y)
    · cases hxy : lt x y with
      | true => exact .inl rfl
      | false => exact .inr (equiv_iff.2 ⟨hxy, hx y hy⟩)

theorem mergeU_uniqued {lt : α → α → Bool} (h : StrictWeak lt) : ∀ {r1 r2 : List α}, Sorted lt r1 → Sorted lt r2 →
    IsUniqued lt (r1 ++ r2) (mergeU lt r1 r2) := by
  intro r1 r2
  have case : ∀ {z : α} {xs : List α}, (∀ x ∈ xs, lt x z = false) → ∀ x ∈ xs, lt z x = true ∨ equiv lt z x = true := by
    intro z xs hge x hx
    cases hzx : lt z x with
    | true => exact .inl rfl
    | false => exact .inr (equiv_iff.2 ⟨hzx, hge x hx⟩)
  fun_induction mergeU lt r1 r2 with
  | case1 r2 => intro _ hs; exact dedup_uniqued h hs
  | case2 r1 => intro hs _; rw [List.append_nil]; exact dedup_uniqued h hs
  | case3 a r1 b r2 hba ih =>
    intro hs1 hs2
    obtain ⟨ha, -⟩ := List.pairwise_cons.1 hs1
    obtain ⟨hb, hs2'⟩ := List.pairwise_cons.1 hs2
    have hgt : ∀ x ∈ a :: r1, lt b x = true := by
      intro x hx
      rcases List.mem_cons.1 hx with rfl | hx
      · exact hba
      · exact h.lt_of_lt_of_le hba (ha x hx)
    refine (ih (dropTo_sorted hs1) (dropTo_sorted hs2')).cons h ?_ ?_ (case fun x hx => ?_)
    · rw [List.find?_append, List.find?_eq_none.2, Option.none_or, List.find?_cons_of_pos (equiv_self h b)]
      intro x hx hc
      exact absurd (hgt x hx) (by rw [(equiv_iff.1 hc).1]; simp)
    · rw [List.filter_append, filter_dropTo h b hs1, List.filter_cons_of_neg (by simp [h.irrefl b]), filter_dropTo h b hs2']
    · rcases List.mem_append.1 hx with hx | hx
      · exact h.asymm (hgt x hx)
      · rcases List.mem_cons.1 hx with rfl | hx
        · exact h.irrefl x
        · exact hb x hx
  | case4 a r1 b r2 hba ih =>
    intro hs1 hs2
    obtain ⟨ha, hs1'⟩ := List.pairwise_cons.1 hs1
    obtain ⟨hb, -⟩ := List.pairwise_cons.1 hs2
    refine (ih (dropTo_sorted hs1') (dropTo_sorted hs2)).cons h ?_ ?_ (case fun x hx => ?_)
    · rw [List.cons_append, List.find?_cons_of_pos (equiv_self h a)]
    · rw [List.filter_append, filter_dropTo h a hs2, List.filter_cons_of_neg (by simp [h.irrefl a]), filter_dropTo h a hs1']
    · have hba' : lt b a = false := by simpa using hba
      rcases List.mem_append.1 hx with hx | hx
      · rcases List.mem_cons.1 hx with rfl | hx
        · exact h.irrefl x
        · exact ha x hx
      · rcases List.mem_cons.1 hx with rfl | hx
        · exact hba'
        · exact h.negTrans hba' (hb x hx)

end Verif.Algo
