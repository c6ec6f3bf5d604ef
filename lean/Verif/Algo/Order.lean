import Mathlib.Data.List.Sort
import Mathlib.Data.List.Perm.Basic
import Mathlib.Data.List.Perm.Subperm

/-!
# Orders and what sorting means

Specification only: nothing here models code. A comparison function of the library is a
function to `Bool`; what the algorithms require of it is that it is a strict weak order.
-/

namespace Verif.Algo

variable {α : Type}

/-- A strict weak order: asymmetric, and "not greater" is transitive. -/
structure StrictWeak (lt : α → α → Bool) : Prop where
  asymm : ∀ {a b}, lt a b = true → lt b a = false
  negTrans : ∀ {a b c}, lt b a = false → lt c b = false → lt c a = false

namespace StrictWeak

variable {lt : α → α → Bool}

theorem irrefl (h : StrictWeak lt) (a : α) : lt a a = false := by
  cases ha : lt a a with
  | false => rfl
  | true => exact (ha ▸ h.asymm ha : true = false) ▸ rfl

theorem trans (h : StrictWeak lt) {a b c : α} (hab : lt a b = true) (hbc : lt b c = true) : lt a c = true := by
  cases hac : lt a c with
  | true => rfl
  | false =>
    have := h.negTrans (h.asymm hbc) hac
    rw [hab] at this; cases this

theorem lt_of_lt_of_le (h : StrictWeak lt) {a b c : α} (hab : lt a b = true) (hbc : lt c b = false) : lt a c = true := by
  cases hac : lt a c with
  | true => rfl
  | false =>
    have := h.negTrans hbc hac
    rw [hab] at this; cases this

theorem lt_of_le_of_lt (h : StrictWeak lt) {a b c : α} (hab : lt b a = false) (hbc : lt b c = true) : lt a c = true := by
  cases hac : lt a c with
  | true => rfl
  | false =>
    have := h.negTrans hac hab
    rw [hbc] at this; cases this

/-- Comparison through a key. -/
theorem comap {β : Type} (h : StrictWeak lt) (f : β → α) : StrictWeak (fun x y => lt (f x) (f y)) :=
  ⟨fun h1 => h.asymm h1, fun h1 h2 => h.negTrans h1 h2⟩

/-- The opposite comparison. -/
theorem flip (h : StrictWeak lt) : StrictWeak (fun x y => lt y x) :=
  ⟨fun h1 => h.asymm h1, fun h1 h2 => h.negTrans h2 h1⟩

end StrictWeak

/-- No element is followed (directly or later) by a smaller one. -/
def Sorted (lt : α → α → Bool) (xs : List α) : Prop := xs.Pairwise fun a b => lt b a = false

/-- Neither is less than the other. -/
def equiv (lt : α → α → Bool) (x y : α) : Bool := !lt x y && !lt y x

/-- `ys` is `xs` sorted with equivalent elements in their original order. -/
structure IsStableSort (lt : α → α → Bool) (xs ys : List α) : Prop where
  sorted : Sorted lt ys
  perm : ys.Perm xs
  stable : ∀ x, ys.filter (equiv lt x) = xs.filter (equiv lt x)

/-- `ys` is `xs` sorted. -/
structure IsSort (lt : α → α → Bool) (xs ys : List α) : Prop where
  sorted : Sorted lt ys
  perm : ys.Perm xs

theorem IsStableSort.isSort {lt : α → α → Bool} {xs ys : List α} (h : IsStableSort lt xs ys) : IsSort lt xs ys := ⟨h.sorted, h.perm⟩

theorem equiv_comm (lt : α → α → Bool) (x y : α) : equiv lt x y = equiv lt y x := by
  simp [equiv, Bool.and_comm]

theorem equiv_refl {lt : α → α → Bool} (h : StrictWeak lt) (x : α) : equiv lt x x = true := by simp [equiv, h.irrefl]

theorem equiv_iff {lt : α → α → Bool} {x y : α} : equiv lt x y = true ↔ lt x y = false ∧ lt y x = false := by
  simp [equiv]

theorem Sorted.tail {lt : α → α → Bool} {x : α} {xs : List α} (h : Sorted lt (x :: xs)) : Sorted lt xs := (List.pairwise_cons.1 h).2

theorem sorted_iff_adjacent {lt : α → α → Bool} (h : StrictWeak lt) {xs : List α} :
    Sorted lt xs ↔ ∀ i (hi : i + 1 < xs.length), lt xs[i + 1] (xs[i]'(by omega)) = false := by
  constructor
  · intro hs i hi
    exact (List.pairwise_iff_getElem.1 hs) i (i + 1) (by omega) hi (by omega)
  · intro ha
    rw [Sorted, List.pairwise_iff_getElem]
    intro i j hi hj hij
    induction j with
    | zero => omega
    | succ j ih =>
      by_cases he : i = j
      · subst he; exact ha i hj
      · exact h.negTrans (ih (by omega) (by omega)) (ha j hj)

/-- A stable sort is unique. -/
theorem IsStableSort.unique {lt : α → α → Bool} (h : StrictWeak lt) : ∀ {xs ys zs : List α},
    IsStableSort lt xs ys → IsStableSort lt xs zs → ys = zs := by
  have key : ∀ (n : Nat) {ys zs : List α}, ys.length ≤ n → Sorted lt ys → Sorted lt zs → ys.Perm zs →
      (∀ x, ys.filter (equiv lt x) = zs.filter (equiv lt x)) → ys = zs := by
    intro n
    induction n with
    | zero =>
      intro ys zs hn _ _ hp _
      have : ys = [] := List.eq_nil_of_length_eq_zero (Nat.le_zero.1 hn)
      subst this
      exact (hp.nil_eq).symm ▸ rfl
    | succ n ih =>
      intro ys zs hn hy hz hp hf
      cases ys with
      | nil => exact hp.nil_eq.symm ▸ rfl
      | cons y ys =>
        cases zs with
        | nil => exact absurd hp.length_eq (by simp)
        | cons z zs =>
          have hyz : lt z y = false := by
            have hz' : z ∈ y :: ys := hp.mem_iff.2 (by simp)
            rcases List.mem_cons.1 hz' with rfl | hm
            · exact h.irrefl _
            · exact (List.pairwise_cons.1 hy).1 z hm
          have hzy : lt y z = false := by
            have hy' : y ∈ z :: zs := hp.mem_iff.1 (by simp)
            rcases List.mem_cons.1 hy' with rfl | hm
            · exact h.irrefl _
            · exact (List.pairwise_cons.1 hz).1 y hm
          have he : y = z := by
            have h1 := hf y
            rw [List.filter_cons_of_pos (equiv_refl h y), List.filter_cons_of_pos (equiv_iff.2 ⟨hzy, hyz⟩)] at h1
            injection h1
          subst he
          congr 1
          refine ih (by simpa using hn) hy.tail hz.tail hp.cons_inv fun x => ?_
          have h1 := hf x
          by_cases hx : equiv lt x y = true
          · rw [List.filter_cons_of_pos hx, List.filter_cons_of_pos hx] at h1
            injection h1
          · rw [List.filter_cons_of_neg hx, List.filter_cons_of_neg hx] at h1
            exact h1
  intro xs ys zs h1 h2
  exact key _ (Nat.le_refl _) h1.sorted h2.sorted (h1.perm.trans h2.perm.symm) fun x => (h1.stable x).trans (h2.stable x).symm

/-- Indices arranged so that values increase and equivalent values keep the order of their
indices give a stable sort. -/
theorem stable_of_indices {lt : α → α → Bool} (h : StrictWeak lt) {is o : List Nat} (a : Nat → α)
    (hi : is.Pairwise (· < ·)) (hp : o.Perm is)
    (ho : o.Pairwise fun p q => lt (a q) (a p) = false ∧ (lt (a p) (a q) = true ∨ p < q)) :
    IsStableSort lt (is.map a) (o.map a) where
  sorted := by
    rw [Sorted, List.pairwise_map]
    exact ho.imp fun h => h.1
  perm := hp.map a
  stable x := by
    rw [List.filter_map, List.filter_map]
    congr 1
    have h1 : (o.filter (equiv lt x ∘ a)).Perm (is.filter (equiv lt x ∘ a)) := hp.filter _
    refine List.Perm.eq_of_pairwise (le := fun p q : Nat => p ≤ q) (fun p q _ _ h1 h2 => Nat.le_antisymm h1 h2) ?_ ?_ h1
    · have h2 := ho.filter (equiv lt x ∘ a)
      refine List.Pairwise.imp_of_mem (fun {p q} hp hq hpq => ?_) h2
      have e1 := equiv_iff.1 (List.of_mem_filter hp : (equiv lt x ∘ a) p = true)
      have e2 := equiv_iff.1 (List.of_mem_filter hq : (equiv lt x ∘ a) q = true)
      rcases hpq.2 with hlt | hlt
      · have := h.negTrans e2.1 e1.2
        rw [hlt] at this; cases this
      · exact Nat.le_of_lt hlt
    · exact (hi.filter _).imp Nat.le_of_lt

theorem sorted_append {lt : α → α → Bool} {xs ys : List α} :
    Sorted lt (xs ++ ys) ↔ Sorted lt xs ∧ Sorted lt ys ∧ ∀ x ∈ xs, ∀ y ∈ ys, lt y x = false := List.pairwise_append

theorem IsStableSort.nil (lt : α → α → Bool) : IsStableSort lt [] [] := ⟨List.Pairwise.nil, List.Perm.refl _, fun _ => rfl⟩

theorem IsStableSort.refl {lt : α → α → Bool} {xs : List α} (h : Sorted lt xs) : IsStableSort lt xs xs := ⟨h, List.Perm.refl _, fun _ => rfl⟩

/-- Sorting parts first does not matter. -/
theorem IsStableSort.append_congr {lt : α → α → Bool} {xs xs' ys ys' zs : List α} (hx : IsStableSort lt xs xs') (hy : IsStableSort lt ys ys')
    (hz : IsStableSort lt (xs' ++ ys') zs) : IsStableSort lt (xs ++ ys) zs where
  sorted := hz.sorted
  perm := hz.perm.trans (hx.perm.append hy.perm)
  stable x := by rw [hz.stable, List.filter_append, List.filter_append, hx.stable, hy.stable]

/-- The largest element of the second part goes last. -/
theorem IsStableSort.push_right {lt : α → α → Bool} {xs w : List α} {y : α} (hw : IsStableSort lt xs w) (hy : ∀ x ∈ xs, lt y x = false) :
    IsStableSort lt (xs ++ [y]) (w ++ [y]) where
  sorted := by
    rw [sorted_append]
    refine ⟨hw.sorted, List.pairwise_singleton _ _, fun x hx z hz => ?_⟩
    rw [List.mem_singleton.1 hz]
    exact hy x (hw.perm.mem_iff.1 hx)
  perm := hw.perm.append_right _
  stable x := by rw [List.filter_append, List.filter_append, hw.stable]

/-- The largest element of the first part goes last if the second part is smaller. -/
theorem IsStableSort.push_left {lt : α → α → Bool} (h : StrictWeak lt) {xs ys w : List α} {x : α} (hw : IsStableSort lt (xs ++ ys) w)
    (hx : ∀ z ∈ xs, lt x z = false) (hy : ∀ y ∈ ys, lt y x = true) : IsStableSort lt (xs ++ [x] ++ ys) (w ++ [x]) where
  sorted := by
    rw [sorted_append]
    refine ⟨hw.sorted, List.pairwise_singleton _ _, fun z hz u hu => ?_⟩
    rw [List.mem_singleton.1 hu]
    rcases List.mem_append.1 (hw.perm.mem_iff.1 hz) with hm | hm
    · exact hx z hm
    · exact h.asymm (hy z hm)
  perm := by
    refine (hw.perm.append_right _).trans ?_
    rw [List.append_assoc, List.append_assoc]
    exact List.Perm.append_left _ List.perm_append_comm
  stable z := by
    simp only [List.filter_append, hw.stable]
    by_cases hz : equiv lt z x = true
    · have : ys.filter (equiv lt z) = [] := by
        rw [List.filter_eq_nil_iff]
        intro y hm he
        have e1 := equiv_iff.1 he
        have e2 := equiv_iff.1 hz
        have := h.negTrans e2.1 e1.2
        rw [hy y hm] at this; cases this
      rw [this]; simp
    · simp [hz]

/-- The smallest element of the first part goes first. -/
theorem IsStableSort.cons_left {lt : α → α → Bool} {xs w : List α} {x : α} (hw : IsStableSort lt xs w) (hx : ∀ y ∈ xs, lt y x = false) :
    IsStableSort lt (x :: xs) (x :: w) where
  sorted := List.pairwise_cons.2 ⟨fun y hy => hx y (hw.perm.mem_iff.1 hy), hw.sorted⟩
  perm := hw.perm.cons _
  stable z := by simp only [List.filter_cons, hw.stable]

/-- The smallest element of the second part goes first if it is smaller than the first part. -/
theorem IsStableSort.cons_right {lt : α → α → Bool} (h : StrictWeak lt) {xs ys w : List α} {y : α} (hw : IsStableSort lt (xs ++ ys) w)
    (hy : ∀ z ∈ ys, lt z y = false) (hx : ∀ x ∈ xs, lt y x = true) : IsStableSort lt (xs ++ y :: ys) (y :: w) where
  sorted := by
    refine List.pairwise_cons.2 ⟨fun z hz => ?_, hw.sorted⟩
    rcases List.mem_append.1 (hw.perm.mem_iff.1 hz) with hm | hm
    · exact h.asymm (hx z hm)
    · exact hy z hm
  perm := (hw.perm.cons _).trans List.perm_middle.symm
  stable z := by
    simp only [List.filter_append, List.filter_cons, hw.stable]
    by_cases hz : equiv lt z y = true
    · have : xs.filter (equiv lt z) = [] := by
        rw [List.filter_eq_nil_iff]
        intro x hm he
        have e1 := equiv_iff.1 he
        have e2 := equiv_iff.1 hz
        have := h.negTrans e1.1 e2.2
        rw [hx x hm] at this; cases this
      rw [this]; simp [hz]
    · simp [hz]

end Verif.Algo
