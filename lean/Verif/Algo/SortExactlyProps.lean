import Verif.Algo.SortExactly

/-!
# Properties of the routines for one to five elements (C39, C56)
-/

namespace Verif.Algo

variable {α : Type}

/-- A list as the elements at its indices. -/
theorem map_getD_range {xs : List α} (d : α) : (List.range xs.length).map (fun i => xs.getD i d) = xs := by
  apply List.ext_getElem
  · simp
  · intro i h1 h2
    simp [List.getD_eq_getElem?_getD, h2]

/-- The in-place routines sort the elements at any `n` distinct places, stably with respect to
the order of the parameters. -/
theorem C39_in_place_anywhere {lt : α → α → Bool} (h : StrictWeak lt) {n : Nat} (hn : 1 ≤ n) (hn5 : n ≤ 5) {ad : Nat → Nat}
    {a : Nat → α} {m : Mem α} (hp : Placed ad a n (n + 1) m) :
    ∃ t m' ys, inPlaceTree n = some t ∧ t.run lt ad m = some m' ∧ ys.length = n ∧ (∀ i (hi : i < ys.length), m' (ad i) = some ys[i]) ∧
      IsStableSort lt ((List.range n).map a) ys ∧ Mem.SameOff m m' (fun x => ∃ i, i < n ∧ x = ad i) := by
  obtain ⟨t, ht⟩ : ∃ t, inPlaceTree n = some t := by
    match n, hn, hn5 with
    | 1, _, _ => exact ⟨_, rfl⟩
    | 2, _, _ => exact ⟨_, rfl⟩
    | 3, _, _ => exact ⟨_, rfl⟩
    | 4, _, _ => exact ⟨_, rfl⟩
    | 5, _, _ => exact ⟨_, rfl⟩
  obtain ⟨m', e, ⟨ys, hl, hy, -, hs⟩, raw, fr⟩ := Tree.check_sound (out := 0) (by omega) h hp (t := t) (facts := [])
    (fun f hf => by simp at hf) (inPlaceTree_check ht)
  refine ⟨t, m', ys, ht, e, hl, fun i hi => by simpa using hy i hi, hs rfl, fun x hx => ?_⟩
  by_cases hxn : x = ad n
  · rw [hxn, raw n (by omega) (by omega), hp.raw n (Nat.le_refl _) (by omega)]
  · refine fr x fun ⟨i, hi, he⟩ => ?_
    by_cases hin : i = n
    · exact hxn (hin ▸ he)
    · exact hx ⟨i, by omega, he⟩

theorem C39_in_place {lt : α → α → Bool} (h : StrictWeak lt) {xs : List α} (hn : 1 ≤ xs.length) (hn5 : xs.length ≤ 5) {m : Mem α}
    {it temp : Nat} (hs : m.Seg it xs) (ht : m temp = none) :
    ∃ m' ys, sortExactlyInPlace lt m it xs.length temp = some m' ∧ m'.Seg it ys ∧ IsStableSort lt xs ys ∧
      m.SameOff m' (fun x => it ≤ x ∧ x < it + xs.length) := by
  obtain ⟨d, hd⟩ : ∃ d, d = xs[0]'(by omega) := ⟨_, rfl⟩
  have hp : Placed (inPlaceAt it xs.length temp) (fun i => xs.getD i d) xs.length (xs.length + 1) m := by
    have hout : ∀ i, i < xs.length → it + i ≠ temp := by
      intro i hi he
      have := hs i hi
      rw [he, ht] at this; cases this
    refine ⟨?_, ?_, ?_, by omega⟩
    · intro i j hi hj he
      simp only [inPlaceAt] at he
      split at he <;> split at he
      · omega
      · exact absurd he (hout i (by assumption))
      · exact absurd he.symm (hout j (by assumption))
      · omega
    · intro i hi
      simp only [inPlaceAt, hi, if_true]
      rw [hs i hi, List.getD_eq_getElem?_getD, List.getElem?_eq_getElem hi]; rfl
    · intro i hi _
      simp only [inPlaceAt, show ¬ i < xs.length by omega, if_false]
      exact ht
  obtain ⟨t, m', ys, e0, e, hl, hy, hst, fr⟩ := C39_in_place_anywhere h hn hn5 hp
  rw [map_getD_range] at hst
  refine ⟨m', ys, ?_, ?_, hst, ?_⟩
  · rw [sortExactlyInPlace, e0]; exact e
  · intro i hi
    have := hy i hi
    rwa [inPlaceAt, if_pos (by omega)] at this
  · intro x hx
    refine fr x fun ⟨i, hi, he⟩ => hx ?_
    rw [inPlaceAt, if_pos hi] at he
    omega

/-- The relocating routines move the elements to the destination in sorted order and leave the
source raw. They are stable except for four cheaply sortable elements. -/
theorem C39_relocate_partial {lt : α → α → Bool} (h : StrictWeak lt) (cheap : Bool) {xs : List α} (hn : 1 ≤ xs.length) (hn4 : xs.length ≤ 4) {m : Mem α}
    {it out : Nat} (hs : m.Seg it xs) (hr : m.Raw out xs.length) :
    ∃ m' ys, sortExactlyRelocate cheap lt m it xs.length out = some m' ∧ m'.Seg out ys ∧ m'.Raw it xs.length ∧ IsSort lt xs ys ∧
      (¬ (cheap = true ∧ xs.length = 4) → IsStableSort lt xs ys) ∧
      m.SameOff m' (fun x => (it ≤ x ∧ x < it + xs.length) ∨ (out ≤ x ∧ x < out + xs.length)) := by
  obtain ⟨d, hd⟩ : ∃ d, d = xs[0]'(by omega) := ⟨_, rfl⟩
  obtain ⟨t, ht⟩ : ∃ t, relocateTree cheap xs.length = some t := by
    clear hd
    generalize xs.length = n at hn hn4
    match n, hn, hn4 with
    | 1, _, _ => exact ⟨_, rfl⟩
    | 2, _, _ => exact ⟨_, rfl⟩
    | 3, _, _ => exact ⟨_, rfl⟩
    | 4, _, _ => exact ⟨_, rfl⟩
  have hp : Placed (relocateFrom it xs.length out) (fun i => xs.getD i d) xs.length (xs.length + xs.length) m := by
    have hout : ∀ i j, i < xs.length → j < xs.length → it + i ≠ out + j := by
      intro i j hi hj he
      have := hs i hi
      rw [he, hr j hj] at this; cases this
    refine ⟨?_, ?_, ?_, by omega⟩
    · intro i j hi hj he
      simp only [relocateFrom] at he
      split at he <;> split at he
      · omega
      · exact absurd he (hout i _ (by assumption) (by omega))
      · exact absurd he.symm (hout j _ (by assumption) (by omega))
      · omega
    · intro i hi
      simp only [relocateFrom, hi, if_true]
      rw [hs i hi, List.getD_eq_getElem?_getD, List.getElem?_eq_getElem hi]; rfl
    · intro i hi hi2
      simp only [relocateFrom, show ¬ i < xs.length by omega, if_false]
      exact hr _ (by omega)
  obtain ⟨m', e, ⟨ys, hl, hy, hsort, hst⟩, raw, fr⟩ := Tree.check_sound (Nat.le_refl _) h hp (t := t) (facts := [])
    (fun f hf => by simp at hf) (relocateTree_check ht)
  rw [map_getD_range] at hsort hst
  refine ⟨m', ys, ?_, ?_, ?_, hsort, ?_, ?_⟩
  · rw [sortExactlyRelocate, ht]; exact e
  · intro i hi
    have := hy i hi
    rwa [relocateFrom, if_neg (by omega), Nat.add_sub_cancel_left] at this
  · intro i hi
    have := raw i (by omega) (by omega)
    rwa [relocateFrom, if_pos hi] at this
  · intro hno
    apply hst
    simp only [relocateStable, Bool.not_eq_true', Bool.and_eq_false_iff, beq_eq_false_iff_ne]
    cases cheap
    · exact .inl rfl
    · exact .inr fun he => hno ⟨rfl, he⟩
  · intro x hx
    refine fr x fun ⟨i, hi, he⟩ => hx ?_
    simp only [relocateFrom] at he
    split at he <;> omega

/-- `sort_exactly_n` sorts in place, also when it goes through a local array; the local storage is
raw again afterwards. -/
theorem C39_sort_exactly_partial {lt : α → α → Bool} (h : StrictWeak lt) (cheap : Bool) {xs : List α} (hn : 1 ≤ xs.length) (hn5 : xs.length ≤ 5) {m : Mem α}
    {it temp : Nat} (hs : m.Seg it xs) (hr : m.Raw temp xs.length) :
    ∃ m' ys, sortExactly cheap lt m it xs.length temp = some m' ∧ m'.Seg it ys ∧ IsSort lt xs ys ∧
      (¬ (cheap = true ∧ xs.length = 4) → IsStableSort lt xs ys) ∧
      m.SameOff m' (fun x => it ≤ x ∧ x < it + xs.length) := by
  by_cases hc : cheap = true ∧ xs.length ≤ 4
  · rw [sortExactly, if_pos hc]
    obtain ⟨m1, ys, e, s1, r1, hsort, hst, f1⟩ := C39_relocate_partial h cheap hn hc.2 hs hr
    have hlen : ys.length = xs.length := hsort.perm.length_eq
    have hdis : temp + ys.length ≤ it ∨ it + ys.length ≤ temp := by
      by_contra hcon
      by_cases hlt : it ≤ temp
      · have a := hs (temp - it) (by omega)
        rw [show it + (temp - it) = temp + 0 by omega, hr 0 (by omega)] at a; cases a
      · have a := hs 0 (by omega)
        have b := hr (it - temp) (by omega)
        rw [show temp + (it - temp) = it + 0 by omega, a] at b; cases b
    obtain ⟨m2, e2, s2, r2, f2⟩ := Mem.relocateRange_spec s1 (dst := it) (by rwa [hlen]) hdis
    refine ⟨m2, ys, ?_, s2, hsort, hst, ?_⟩
    · rw [e]; rw [hlen] at e2; exact e2
    · intro x hx
      by_cases hxt : temp ≤ x ∧ x < temp + xs.length
      · have := r2 (x - temp) (by omega)
        rw [show temp + (x - temp) = x by omega] at this
        have b := hr (x - temp) (by omega)
        rw [show temp + (x - temp) = x by omega] at b
        rw [this, b]
      · rw [f2 x (by omega), f1 x (by omega)]
  · rw [sortExactly, if_neg hc]
    obtain ⟨m', ys, e, s, hst, f⟩ := C39_in_place h hn hn5 hs (temp := temp) (by simpa using hr 0 (by omega))
    exact ⟨m', ys, e, s, hst.isSort, fun _ => hst, f⟩

/-- Sorting four cheaply sortable elements is documented as stable and is not: of two equivalent
elements the second comes out first (`std::less<>` on a trivially copyable type whose `<` looks at
one member). -/
theorem C39_branchless_stable_violated :
    ∃ (lt : Nat × Nat → Nat × Nat → Bool) (xs : List (Nat × Nat)) (m m' : Mem (Nat × Nat)) (ys : List (Nat × Nat)),
      StrictWeak lt ∧ xs.length = 4 ∧ m.Seg 0 xs ∧ m.Raw 4 4 ∧ sortExactlyRelocate true lt m 0 4 4 = some m' ∧ m'.Seg 4 ys ∧
      ¬ IsStableSort lt xs ys := by
  let lt : Nat × Nat → Nat × Nat → Bool := fun a b => decide (a.1 < b.1)
  let xs : List (Nat × Nat) := [(1, 0), (2, 0), (2, 1), (3, 0)]
  let m : Mem (Nat × Nat) := fun i => xs[i]?
  have hsw : StrictWeak lt := ⟨fun h => by simp only [lt, decide_eq_true_eq, decide_eq_false_iff_not] at *; omega,
    fun h1 h2 => by simp only [lt, decide_eq_false_iff_not] at *; omega⟩
  obtain ⟨m', e⟩ : ∃ m', sortExactlyRelocate true lt m 0 4 4 = some m' := ⟨_, rfl⟩
  refine ⟨lt, xs, m, m', [(1, 0), (2, 1), (2, 0), (3, 0)], hsw, rfl, ?_, ?_, e, ?_, ?_⟩
  · intro i hi
    simp only [Nat.zero_add]
    exact List.getElem?_eq_getElem hi
  · intro i hi
    exact List.getElem?_eq_none (by show 4 ≤ 4 + i; omega)
  · have h4 : (sortExactlyRelocate true lt m 0 4 4).map (fun m => (m 4, m 5, m 6, m 7)) = some (some (1, 0), some (2, 1), some (2, 0), some (3, 0)) := rfl
    rw [e] at h4
    injection h4 with h4
    injection h4 with a h4
    injection h4 with b h4
    injection h4 with c d
    intro i hi
    match i, hi with
    | 0, _ => exact a
    | 1, _ => exact b
    | 2, _ => exact c
    | 3, _ => exact d
  · intro hst
    exact absurd (hst.stable (2, 0)) (by decide)

/-! ## Numbers of comparisons -/

/-- How many comparisons are made. -/
def Tree.compares (lt : α → α → Bool) (a : Nat → α) : Tree → Nat
  | .done _ => 0
  | .ask i j yes no => 1 + if lt (a i) (a j) then yes.compares lt a else no.compares lt a

/-- The longest path. -/
def Tree.depth : Tree → Nat
  | .done _ => 0
  | .ask _ _ yes no => 1 + max yes.depth no.depth

/-- The path on which every comparison says `b`. -/
def Tree.always (b : Bool) : Tree → Nat
  | .done _ => 0
  | .ask _ _ yes no => 1 + if b then yes.always b else no.always b

/-- Every comparison is of a later element with an earlier one. -/
def Tree.backwards : Tree → Bool
  | .done _ => true
  | .ask i j yes no => decide (j < i) && yes.backwards && no.backwards

/-- The names compared are below `n`. -/
def Tree.asksBelow (n : Nat) : Tree → Bool
  | .done _ => true
  | .ask i j yes no => decide (i < n) && decide (j < n) && yes.asksBelow n && no.asksBelow n

theorem Tree.compares_le (lt : α → α → Bool) (a : Nat → α) : ∀ t : Tree, t.compares lt a ≤ t.depth
  | .done _ => Nat.le_refl _
  | .ask i j yes no => by
    have h1 := Tree.compares_le lt a yes
    have h2 := Tree.compares_le lt a no
    simp only [compares, depth]
    split <;> omega

theorem Tree.compares_always {lt : α → α → Bool} {a : Nat → α} {n : Nat} {b : Bool}
    (h : ∀ i j, j < i → i < n → lt (a i) (a j) = b) : ∀ {t : Tree}, t.backwards = true → t.asksBelow n = true → t.compares lt a = t.always b
  | .done _, _, _ => rfl
  | .ask i j yes no, hb, hn => by
    simp only [backwards, asksBelow, Bool.and_eq_true, decide_eq_true_eq] at hb hn
    simp only [compares, always, h i j hb.1.1 hn.1.1.1]
    rw [Tree.compares_always h hb.1.2 hn.1.2, Tree.compares_always h hb.2 hn.2]

/-- The documented numbers: at most, on sorted input, on input in strictly descending order. -/
structure Documented (t : Tree) (n most sorted reversed : Nat) : Prop where
  most : ∀ {α : Type} (lt : α → α → Bool) (a : Nat → α), t.compares lt a ≤ most
  sorted : ∀ {α : Type} (lt : α → α → Bool) (a : Nat → α), Sorted lt ((List.range n).map a) → t.compares lt a = sorted
  reversed : ∀ {α : Type} (lt : α → α → Bool) (a : Nat → α),
    ((List.range n).map a).Pairwise (fun x y => lt y x = true) → t.compares lt a = reversed

theorem documented_of {t : Tree} {n most sorted reversed : Nat} (h1 : t.depth = most) (h2 : t.always false = sorted) (h3 : t.always true = reversed)
    (hb : t.backwards = true) (hn : t.asksBelow n = true) : Documented t n most sorted reversed := by
  have key : ∀ {α : Type} (lt : α → α → Bool) (a : Nat → α) (b : Bool), ((List.range n).map a).Pairwise (fun x y => lt y x = b) →
      ∀ i j, j < i → i < n → lt (a i) (a j) = b := by
    intro α lt a b hp i j hji hin
    have := List.pairwise_iff_getElem.1 hp j i (by simp; omega) (by simpa using hin) hji
    simpa using this
  exact ⟨fun lt a => h1 ▸ Tree.compares_le lt a t, fun lt a hs => h2 ▸ Tree.compares_always (key lt a false hs) hb hn,
    fun lt a hs => h3 ▸ Tree.compares_always (key lt a true hs) hb hn⟩

theorem C56_in_place_1 : Documented inPlace1 1 0 0 0 := documented_of rfl rfl rfl rfl rfl
theorem C56_in_place_2 : Documented inPlace2 2 1 1 1 := documented_of rfl rfl rfl rfl rfl
theorem C56_in_place_3 : Documented inPlace3 3 3 2 2 := documented_of rfl rfl rfl rfl rfl
theorem C56_in_place_4 : Documented inPlace4 4 5 4 4 := documented_of rfl rfl rfl rfl rfl
theorem C56_in_place_5 : Documented inPlace5 5 7 6 6 := documented_of rfl rfl rfl rfl rfl
theorem C56_min_compares_4 : Documented minCompares4 4 5 4 4 := documented_of rfl rfl rfl rfl rfl

/-- The version that always makes five comparisons. -/
theorem C56_branchless_4 (lt : α → α → Bool) (a : Nat → α) : branchless4.compares lt a = 5 := by
  simp only [branchless4, lowHigh, Tree.compares]
  repeat' split
  all_goals rfl

/-! ## Examples -/

/-- Four elements at 0, local storage at 9, with ties. -/
def exMem (xs : List (Nat × Nat)) : Mem (Nat × Nat) := fun i => xs[i]?

example : (sortExactlyInPlace (fun a b => decide (a.1 < b.1)) (exMem [(2, 0), (1, 0), (2, 1), (1, 1)]) 0 4 9).map
    (fun m => (m 0, m 1, m 2, m 3, m 9)) = some (some (1, 0), some (1, 1), some (2, 0), some (2, 1), none) := rfl

example : (sortExactly true (fun a b => decide (a.1 < b.1)) (exMem [(3, 0), (1, 0), (2, 1)]) 0 3 9).map
    (fun m => (m 0, m 1, m 2, m 9, m 10, m 11)) = some (some (1, 0), some (2, 1), some (3, 0), none, none, none) := rfl

/-- Storage that is not raw is overwritten: undefined behaviour. -/
example : sortExactlyInPlace (fun a b => decide (a.1 < b.1)) (exMem [(2, 0), (1, 0), (1, 1), (0, 0)]) 0 3 3 = none := rfl

end Verif.Algo
