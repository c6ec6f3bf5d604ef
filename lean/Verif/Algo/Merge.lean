import Mathlib.Data.List.Induction
import Verif.Algo.SortExactlyProps
import Verif.Algo.Partition

/-!
# Merging by relocation (C40)

`merge_relocate_second_range.cpp`, `fixed_size_merge_sort.cpp`, `chunked_insertion_sort.cpp` and the
dispatch of `small_size_optimized_sort.cpp`.
-/

namespace Verif.Algo

variable {α : Type}

/-! ## The model -/

/-- The loop of `merge_relocate_second_range` (`merge_relocate_second_range.cpp` 46-62). The lambda of
lines 37-39 refers to `last2`, which by now is the position of the last element still to be moved. -/
def mergeBackLoop (lt : α → α → Bool) (first1 first2 : Nat) : Nat → Mem α → Nat → Nat → Nat → Option (Mem α)
  | 0, _, _, _, _ => none
  | f + 1, m, last1, last2, out => do
    let y ← m last2
    let x ← m last1
    if lt y x then do
      let m ← m.relocateAt (out - 1) last1
      if first1 = last1 then m.relocateRange first2 first1 (last2 - first2)
      else mergeBackLoop lt first1 first2 f m (last1 - 1) last2 (out - 1)
    else do
      let m ← m.relocateAt (out - 1) last2
      if first2 = last2 then some m
      else mergeBackLoop lt first1 first2 f m last1 (last2 - 1) (out - 1)

/-- `merge_relocate_second_range` (`merge_relocate_second_range.cpp` 31-63). The assertion of line 32
is the first condition. -/
def mergeRelocateSecond (lt : α → α → Bool) (m : Mem α) (first1 last1 first2 last2 out : Nat) : Option (Mem α) :=
  if first2 = last2 then none
  else if first1 = last1 then m.relocateRange first2 first1 (last2 - first2)
  else mergeBackLoop lt first1 first2 (last1 - first1 + (last2 - first2)) m (last1 - 1) (last2 - 1) out

/-- The loop of `fixed_size_merge_sort` (`fixed_size_merge_sort.cpp` 32-49). -/
def mergeFrontLoop (lt : α → α → Bool) (last1 last2 : Nat) : Nat → Mem α → Nat → Nat → Nat → Option (Mem α)
  | 0, _, _, _, _ => none
  | f + 1, m, it, first1, first2 => do
    let y ← m first2
    let x ← m first1
    if lt y x then do
      let m ← m.relocateAt it first2
      if first2 + 1 = last2 then m.relocateRange first1 (it + 1) (last1 - first1)
      else mergeFrontLoop lt last1 last2 f m (it + 1) first1 (first2 + 1)
    else do
      let m ← m.relocateAt it first1
      if first1 + 1 = last1 then some m
      else mergeFrontLoop lt last1 last2 f m (it + 1) (first1 + 1) first2

/-- `fixed_size_merge_sort` (`fixed_size_merge_sort.cpp` 21-50); `buffer` is the local array, `temp`
the local storage of the routines for the two parts. -/
def fixedSizeMergeSort (cheap : Bool) (lt : α → α → Bool) (m : Mem α) (it size1 size2 buffer temp : Nat) : Option (Mem α) := do
  let m ← sortExactly cheap lt m (it + size1) size2 temp
  let m ← sortExactlyRelocate cheap lt m it size1 buffer
  mergeFrontLoop lt (buffer + size1) (it + size1 + size2) (size1 + size2) m it buffer (it + size1)

/-- The loop of `is_sorted` with `n` elements to go (`is_sorted.cpp` 25-37). -/
def isSortedLoop (m : Mem α) (lt : α → α → Bool) : Nat → Nat → Nat → Option Bool
  | 0, _, _ => some true
  | n + 1, first, next => do
    let y ← m next
    let x ← m first
    if lt y x then some false else isSortedLoop m lt n next (next + 1)

/-- `is_sorted` (`is_sorted.cpp` 21-40). -/
def isSorted (m : Mem α) (lt : α → α → Bool) (first n : Nat) : Option Bool :=
  if n = 0 then some true else isSortedLoop m lt (n - 1) first (first + 1)

/-- `do_sort` (`small_size_optimized_sort.cpp` 32-39). The branches that depend on the type of the size
only remove cases that cannot happen. A failed assertion is `none`. -/
def doSort (cheap : Bool) (lt : α → α → Bool) (m : Mem α) (first n temp : Nat) : Option (Mem α) := do
  let m ← sortExactly cheap lt m first n temp
  let b ← isSorted m lt first n
  if b then some m else none

/-- `small_size_optimized_sort` (`small_size_optimized_sort.cpp` 28-64). -/
def smallSort (cheap : Bool) (lt : α → α → Bool) (temp : Nat) (large : Mem α → Nat → Nat → Option (Mem α)) (m : Mem α) (first n : Nat) : Option (Mem α) :=
  if n ≤ 1 then some m
  else if n ≤ 5 then doSort cheap lt m first n temp
  else large m first n

/-- The loop of `chunked_insertion_sort` with `k` chunks to go (`chunked_insertion_sort.cpp` 46-55). -/
def chunkLoop (cheap : Bool) (lt : α → α → Bool) (first buffer : Nat) : Nat → Mem α → Nat → Option (Mem α)
  | 0, m, _ => some m
  | k + 1, m, it => do
    let m ← sortExactlyRelocate cheap lt m it 4 buffer
    let m ← mergeRelocateSecond lt m first it buffer (buffer + 4) (it + 4)
    chunkLoop cheap lt first buffer k m (it + 4)

/-- `chunked_insertion_sort` (`chunked_insertion_sort.cpp` 34-57). The assertion of line 56 holds since
the steps add up to the size. The lambda of line 42 is unreachable for fewer than four elements. -/
def chunkedInsertionSort (cheap : Bool) (lt : α → α → Bool) (m : Mem α) (first n buffer temp : Nat) : Option (Mem α) := do
  let m ← smallSort cheap lt temp (fun _ _ _ => none) m first (n % 4)
  chunkLoop cheap lt first buffer (n / 4) m (first + n % 4)

/-! ## is_sorted and the small sizes -/

theorem isSortedLoop_spec {m : Mem α} {lt : α → α → Bool} : ∀ {xs : List α} {x : α} {first : Nat}, m.Seg first (x :: xs) →
    ∃ b, isSortedLoop m lt xs.length first (first + 1) = some b ∧ (b = true ↔ List.IsChain (fun a b => lt b a = false) (x :: xs))
  | [], x, first, _ => ⟨true, rfl, by simp⟩
  | y :: xs, x, first, h => by
    obtain ⟨h0, h1⟩ := Mem.seg_cons.1 h
    obtain ⟨h2, -⟩ := Mem.seg_cons.1 h1
    rw [List.length_cons, isSortedLoop, h0, h2]
    simp only [Option.bind_eq_bind, Option.bind_some]
    cases hl : lt y x with
    | true => exact ⟨false, if_pos rfl, by simp [List.isChain_cons_cons, hl]⟩
    | false =>
      obtain ⟨b, e, hb⟩ := isSortedLoop_spec (lt := lt) h1
      refine ⟨b, by rw [if_neg (by simp)]; exact e, ?_⟩
      rw [hb, List.isChain_cons_cons]
      simp [hl]

/-- `is_sorted` decides sortedness. -/
theorem C38_is_sorted {m : Mem α} {lt : α → α → Bool} (h : StrictWeak lt) {xs : List α} {first : Nat} (hs : m.Seg first xs) :
    ∃ b, isSorted m lt first xs.length = some b ∧ (b = true ↔ Sorted lt xs) := by
  cases xs with
  | nil => exact ⟨true, rfl, by simp [Sorted]⟩
  | cons x xs =>
    obtain ⟨b, e, hb⟩ := isSortedLoop_spec (lt := lt) hs
    refine ⟨b, by rw [isSorted, if_neg (by simp)]; exact e, ?_⟩
    rw [hb, sorted_iff_adjacent h, List.isChain_iff_getElem]

/-- What a sort of a range in place achieves. -/
def SortsRange (stable : Bool) (lt : α → α → Bool) (m : Mem α) (first : Nat) (xs : List α) (r : Option (Mem α)) : Prop :=
  ∃ m' ys, r = some m' ∧ m'.Seg first ys ∧ IsSort lt xs ys ∧ (stable = true → IsStableSort lt xs ys) ∧
    m.SameOff m' (InRange first xs.length)

theorem doSort_spec {lt : α → α → Bool} (h : StrictWeak lt) (cheap : Bool) {xs : List α} (hn : 1 ≤ xs.length) (hn5 : xs.length ≤ 5) {m : Mem α}
    {first temp : Nat} (hs : m.Seg first xs) (hr : m.Raw temp xs.length) :
    SortsRange (!(cheap && xs.length == 4)) lt m first xs (doSort cheap lt m first xs.length temp) := by
  obtain ⟨m', ys, e, s, hsort, hst, f⟩ := C39_sort_exactly_partial h cheap hn hn5 hs hr
  obtain ⟨b, e2, hb⟩ := C38_is_sorted h s
  rw [hsort.perm.length_eq] at e2
  have : b = true := hb.2 hsort.sorted
  subst this
  refine ⟨m', ys, ?_, s, hsort, fun hc => hst ?_, f⟩
  · rw [doSort, e]
    simp only [Option.bind_eq_bind, Option.bind_some, e2, if_true]
  · rintro ⟨rfl, h4⟩
    simp [h4] at hc

theorem smallSort_spec {lt : α → α → Bool} (h : StrictWeak lt) (cheap : Bool) {xs : List α} {m : Mem α} {first temp : Nat}
    {large : Mem α → Nat → Nat → Option (Mem α)} (hs : m.Seg first xs) (hr : m.Raw temp 5)
    (hl : 5 < xs.length → SortsRange false lt m first xs (large m first xs.length)) :
    SortsRange (!(cheap && xs.length == 4) && decide (xs.length ≤ 5)) lt m first xs (smallSort cheap lt temp large m first xs.length) := by
  rw [smallSort]
  split
  · rename_i h1
    have hst : Sorted lt xs := by
      match xs, h1 with
      | [], _ => exact List.Pairwise.nil
      | [x], _ => exact List.pairwise_singleton _ _
    exact ⟨m, xs, rfl, hs, (IsStableSort.refl hst).isSort, fun _ => IsStableSort.refl hst, fun _ _ => rfl⟩
  · rename_i h1
    split
    · rename_i h5
      obtain ⟨m', ys, e, s, hsort, hst, f⟩ := doSort_spec h cheap (by omega) h5 hs (temp := temp) (fun i hi => hr i (by omega))
      exact ⟨m', ys, e, s, hsort, fun hc => hst (by simp [h5] at hc; simpa using hc), f⟩
    · rename_i h5
      obtain ⟨m', ys, e, s, hsort, -, f⟩ := hl (by omega)
      exact ⟨m', ys, e, s, hsort, fun hc => by simp [h5] at hc, f⟩

/-! ## merge_relocate_second_range -/

/-- The two ranges of a merge: the first with room for the second behind it, the second elsewhere. -/
structure MergeRanges (m : Mem α) (first1 first2 : Nat) (xs ys : List α) : Prop where
  seg1 : m.Seg first1 xs
  seg2 : m.Seg first2 ys
  room : m.Raw (first1 + xs.length) ys.length
  apart : first2 + ys.length ≤ first1 ∨ first1 + xs.length + ys.length ≤ first2

theorem mergeBackLoop_spec {lt : α → α → Bool} (h : StrictWeak lt) {first1 first2 : Nat} : ∀ (f : Nat) {m : Mem α} {xs ys : List α} {x y : α},
    xs.length + ys.length + 1 < f → MergeRanges m first1 first2 (xs ++ [x]) (ys ++ [y]) → Sorted lt (xs ++ [x]) → Sorted lt (ys ++ [y]) →
    (∀ a b, (xs ++ [x])[0]? = some a → (ys ++ [y])[0]? = some b → lt b a = false) →
    ∃ m' zs, mergeBackLoop lt first1 first2 f m (first1 + xs.length) (first2 + ys.length) (first1 + xs.length + ys.length + 2) = some m' ∧
      m'.Seg first1 zs ∧ IsStableSort lt ((xs ++ [x]) ++ (ys ++ [y])) zs ∧ m'.Raw first2 (ys.length + 1) ∧
      m.SameOff m' (fun a => InRange first1 (xs.length + ys.length + 2) a ∨ InRange first2 (ys.length + 1) a)
  | 0, m, xs, ys, x, y, hf, _, _, _, _ => by omega
  | f + 1, m, xs, ys, x, y, hf, hm, hsx, hsy, hhead => by
    obtain ⟨hs1, hs2, hroom, hap⟩ := hm
    simp only [List.length_append, List.length_singleton] at hroom hap
    have hx : m (first1 + xs.length) = some x := by
      have := hs1 xs.length (by simp)
      simpa using this
    have hy : m (first2 + ys.length) = some y := by
      have := hs2 ys.length (by simp)
      simpa using this
    have hs1' : m.Seg first1 xs := (Mem.seg_append.1 hs1).1
    have hs2' : m.Seg first2 ys := (Mem.seg_append.1 hs2).1
    have hxs : ∀ z ∈ xs, lt x z = false := fun z hz => (sorted_append.1 hsx).2.2 z hz x (by simp)
    have hys : ∀ z ∈ ys, lt y z = false := fun z hz => (sorted_append.1 hsy).2.2 z hz y (by simp)
    have hraw : m (first1 + xs.length + ys.length + 2 - 1) = none := by
      have := hroom ys.length (by omega)
      rwa [show first1 + (xs.length + 1) + ys.length = first1 + xs.length + ys.length + 2 - 1 by omega] at this
    rw [mergeBackLoop, hx, hy]
    simp only [Option.bind_eq_bind, Option.bind_some]
    cases hl : lt y x with
    | true =>
      rw [if_pos rfl]
      obtain ⟨m1, e1, d1, r1, f1⟩ := Mem.relocateAt_spec hx hraw
      simp only [e1, Option.bind_some]
      rcases List.eq_nil_or_concat xs with hnil | ⟨xs', x', hcon⟩
      · -- the first range cannot be used up first
        exfalso
        subst hnil
        have hb : ∃ b, (ys ++ [y])[0]? = some b ∧ lt y b = false := by
          cases ys with
          | nil => exact ⟨y, rfl, h.irrefl _⟩
          | cons b ys => exact ⟨b, rfl, hys b (by simp)⟩
        obtain ⟨b, hb1, hb2⟩ := hb
        have := hhead x b (by simp) hb1
        rw [h.lt_of_le_of_lt hb2 hl] at this; cases this
      · rw [List.concat_eq_append] at hcon
        subst hcon
        simp only [List.length_append, List.length_singleton] at *
        rw [if_neg (by omega)]
        obtain ⟨m', zs, e, s, hst, hr, hfr⟩ := mergeBackLoop_spec h f (m := m1) (xs := xs') (x := x') (ys := ys) (y := y) (by omega)
          ⟨hs1'.frame f1 (fun i hi => by simp at hi; omega), hs2.frame f1 (fun i hi => by simp at hi; omega),
            fun i hi => by
              simp only [List.length_append, List.length_singleton] at hi ⊢
              by_cases hi0 : i = 0
              · subst hi0; exact r1
              · rw [f1 _ (by omega)]
                have := hroom (i - 1) (by omega)
                rwa [show first1 + (xs'.length + 1 + 1) + (i - 1) = first1 + (xs'.length + 1) + i by omega] at this,
            by simp only [List.length_append, List.length_singleton]; omega⟩
          (sorted_append.1 hsx).1 hsy
          (fun a b ha hb => hhead a b (by rw [List.getElem?_append_left (by simp)]; exact ha) hb)
        have hzl := hst.perm.length_eq
        simp only [List.length_append, List.length_singleton] at hzl
        refine ⟨m', zs ++ [x], ?_, ?_, ?_, hr, ?_⟩
        · rw [← e]; congr 1; omega
        · rw [Mem.seg_append]
          refine ⟨s, fun i hi => ?_⟩
          have : i = 0 := by simpa using hi
          subst this
          rw [Nat.add_zero, hfr _ (by omega), hzl, show first1 + (xs'.length + 1 + (ys.length + 1)) = first1 + (xs'.length + 1) + ys.length + 2 - 1 by omega, d1]
          rfl
        · exact hst.push_left h hxs (fun z hz => by
            rcases List.mem_append.1 hz with hz | hz
            · exact h.lt_of_le_of_lt (hys z hz) hl
            · rw [List.mem_singleton.1 hz]; exact hl)
        · intro a ha
          rw [hfr a (by omega), f1 a (by omega)]
    | false =>
      rw [if_neg (by simp)]
      obtain ⟨m1, e1, d1, r1, f1⟩ := Mem.relocateAt_spec hy hraw
      simp only [e1, Option.bind_some]
      rcases List.eq_nil_or_concat ys with hnil | ⟨ys', y', hcon⟩
      · subst hnil
        simp only [List.length_nil, Nat.add_zero, List.nil_append] at *
        rw [if_pos trivial]
        refine ⟨m1, (xs ++ [x]) ++ [y], rfl, ?_, ?_, ?_, ?_⟩
        · rw [Mem.seg_append]
          refine ⟨hs1.frame f1 (fun i hi => by simp at hi; omega), fun i hi => ?_⟩
          have : i = 0 := by simpa using hi
          subst this
          simp only [List.length_append, List.length_singleton]
          rw [show first1 + (xs.length + 1) + 0 = first1 + xs.length + 2 - 1 by omega, d1]
          rfl
        · refine IsStableSort.push_right (IsStableSort.refl hsx) fun z hz => ?_
          rcases List.mem_append.1 hz with hz | hz
          · exact h.negTrans (hxs z hz) hl
          · rw [List.mem_singleton.1 hz]; exact hl
        · intro i hi
          have : i = 0 := by omega
          subst this; exact r1
        · intro a ha
          exact f1 a (by omega)
      · rw [List.concat_eq_append] at hcon
        subst hcon
        simp only [List.length_append, List.length_singleton] at *
        rw [if_neg (by omega)]
        obtain ⟨m', zs, e, s, hst, hr, hfr⟩ := mergeBackLoop_spec h f (m := m1) (xs := xs) (x := x) (ys := ys') (y := y') (by omega)
          ⟨hs1.frame f1 (fun i hi => by simp at hi; omega), hs2'.frame f1 (fun i hi => by simp at hi; omega),
            fun i hi => by
              simp only [List.length_append, List.length_singleton] at hi ⊢
              rw [f1 _ (by omega)]
              exact hroom i (by omega),
            by simp only [List.length_append, List.length_singleton]; omega⟩
          hsx (sorted_append.1 hsy).1
          (fun a b ha hb => hhead a b ha (by rw [List.getElem?_append_left (by simp)]; exact hb))
        have hzl := hst.perm.length_eq
        simp only [List.length_append, List.length_singleton] at hzl
        refine ⟨m', zs ++ [y], ?_, ?_, ?_, ?_, ?_⟩
        · rw [← e]; congr 1
        · rw [Mem.seg_append]
          refine ⟨s, fun i hi => ?_⟩
          have : i = 0 := by simpa using hi
          subst this
          rw [Nat.add_zero, hfr _ (by omega), hzl, show first1 + (xs.length + 1 + (ys'.length + 1)) = first1 + xs.length + (ys'.length + 1) + 2 - 1 by omega, d1]
          rfl
        · rw [← List.append_assoc]
          refine hst.push_right fun z hz => ?_
          rcases List.mem_append.1 hz with hz | hz
          · rcases List.mem_append.1 hz with hz | hz
            · exact h.negTrans (hxs z hz) hl
            · rw [List.mem_singleton.1 hz]; exact hl
          · exact hys z hz
        · intro i hi
          by_cases hil : i = ys'.length + 1
          · subst hil
            rw [hfr _ (by omega)]; exact r1
          · exact hr i (by omega)
        · intro a ha
          rw [hfr a (by omega), f1 a (by omega)]

/-- `merge_relocate_second_range` merges stably when the first element of the first range is not
greater than the first element of the second. Missing: the other case, see
`C40_merge_relocate_complete_violated`. -/
theorem C40_merge_relocate_partial {lt : α → α → Bool} (h : StrictWeak lt) {m : Mem α} {first1 first2 : Nat} {xs ys : List α}
    (hm : MergeRanges m first1 first2 xs ys) (hsx : Sorted lt xs) (hsy : Sorted lt ys) (hne : ys ≠ [])
    (hhead : ∀ a b, xs[0]? = some a → ys[0]? = some b → lt b a = false) :
    ∃ m' zs, mergeRelocateSecond lt m first1 (first1 + xs.length) first2 (first2 + ys.length) (first1 + xs.length + ys.length) = some m' ∧
      m'.Seg first1 zs ∧ IsStableSort lt (xs ++ ys) zs ∧ m'.Raw first2 ys.length ∧
      m.SameOff m' (fun a => InRange first1 (xs.length + ys.length) a ∨ InRange first2 ys.length a) := by
  rcases List.eq_nil_or_concat ys with hnil | ⟨ys', y, hcony⟩
  · exact absurd hnil hne
  rw [List.concat_eq_append] at hcony
  have hyl : ys.length = ys'.length + 1 := by rw [hcony]; simp
  rw [mergeRelocateSecond, if_neg (by omega)]
  rcases List.eq_nil_or_concat xs with hnil | ⟨xs', x, hconx⟩
  · subst hnil
    rw [if_pos (by simp), Nat.add_sub_cancel_left]
    have hroom := hm.room
    have hap := hm.apart
    simp only [List.length_nil, Nat.add_zero] at hroom hap
    obtain ⟨m', e, s, r, f⟩ := Mem.relocateRange_spec hm.seg2 hroom (by omega)
    refine ⟨m', ys, e, s, IsStableSort.refl hsy, r, fun a ha => f a (by simp only [List.length_nil] at ha; omega)⟩
  · rw [List.concat_eq_append] at hconx
    have hxl : xs.length = xs'.length + 1 := by rw [hconx]; simp
    rw [if_neg (by omega)]
    subst hconx hcony
    obtain ⟨m', zs, e, s, hst, hr, hfr⟩ := mergeBackLoop_spec h (xs'.length + 1 + (ys'.length + 1)) (by omega) hm hsx hsy hhead
    refine ⟨m', zs, ?_, s, hst, by rw [hyl]; exact hr, fun a ha => hfr a (by omega)⟩
    rw [← e]; congr 1 <;> omega

/-- Whenever the second range starts with the smallest element, `merge_relocate_second_range` loses
an element: after relocating the last element of the first range, the remaining elements of the
second are relocated except for the last one (the lambda refers to the decremented `last2`). Here
`[2]` and `[1]` merge to a range whose first cell holds no element. -/
theorem C40_merge_relocate_complete_violated :
    ∃ (m m' : Mem Nat) (xs ys : List Nat), MergeRanges m 0 5 xs ys ∧ Sorted (fun a b => decide (a < b)) xs ∧ Sorted (fun a b => decide (a < b)) ys ∧
      ys ≠ [] ∧ mergeRelocateSecond (fun a b => decide (a < b)) m 0 (0 + xs.length) 5 (5 + ys.length) (0 + xs.length + ys.length) = some m' ∧
      m' 0 = none ∧ m' 5 = some 1 := by
  refine ⟨fun a => if a = 0 then some 2 else if a = 5 then some 1 else none, _, [2], [1], ⟨?_, ?_, ?_, ?_⟩, ?_, ?_, ?_, rfl, rfl, rfl⟩
  · intro i hi
    have : i = 0 := by simpa using hi
    subst this; rfl
  · intro i hi
    have : i = 0 := by simpa using hi
    subst this; rfl
  · intro i hi
    have : i = 0 := by simpa using hi
    subst this; rfl
  · simp
  · exact List.pairwise_singleton _ _
  · exact List.pairwise_singleton _ _
  · simp

/-! ## fixed_size_merge_sort -/

theorem mergeFrontLoop_spec {lt : α → α → Bool} (h : StrictWeak lt) : ∀ (f : Nat) {m : Mem α} {xs ys : List α} {x y : α} {it b : Nat},
    xs.length + ys.length + 1 < f → m.Seg b (x :: xs) → m.Seg (it + xs.length + 1) (y :: ys) → m.Raw it (xs.length + 1) →
    (b + xs.length + 1 ≤ it ∨ it + xs.length + ys.length + 2 ≤ b) → Sorted lt (x :: xs) → Sorted lt (y :: ys) →
    ∃ m' zs, mergeFrontLoop lt (b + xs.length + 1) (it + xs.length + ys.length + 2) f m it b (it + xs.length + 1) = some m' ∧
      m'.Seg it zs ∧ IsStableSort lt ((x :: xs) ++ (y :: ys)) zs ∧ m'.Raw b (xs.length + 1) ∧
      m.SameOff m' (fun a => InRange it (xs.length + ys.length + 2) a ∨ InRange b (xs.length + 1) a)
  | 0, m, xs, ys, x, y, it, b, hf, _, _, _, _, _, _ => by omega
  | f + 1, m, xs, ys, x, y, it, b, hf, hb, hs, hr, hap, hsx, hsy => by
    obtain ⟨hx, hb'⟩ := Mem.seg_cons.1 hb
    obtain ⟨hy, hs'⟩ := Mem.seg_cons.1 hs
    have hx0 := (List.pairwise_cons.1 hsx).1
    have hy0 := (List.pairwise_cons.1 hsy).1
    have hraw : m it = none := by simpa using hr 0 (by omega)
    rw [mergeFrontLoop, hx, hy]
    simp only [Option.bind_eq_bind, Option.bind_some]
    cases hl : lt y x with
    | true =>
      rw [if_pos rfl]
      obtain ⟨m1, e1, d1, r1, f1⟩ := Mem.relocateAt_spec hy hraw
      simp only [e1, Option.bind_some]
      have hxy : ∀ z ∈ x :: xs, lt y z = true := by
        intro z hz
        rcases List.mem_cons.1 hz with rfl | hz
        · exact hl
        · exact h.lt_of_lt_of_le hl (hx0 z hz)
      have hb1 : m1.Seg b (x :: xs) := hb.frame f1 (fun i hi => by simp at hi; omega)
      cases ys with
      | nil =>
        simp only [List.length_nil, Nat.add_zero] at *
        rw [if_pos (by first | omega | trivial)]
        have hraw1 : m1.Raw (it + 1) (x :: xs).length := by
          intro i hi
          simp only [List.length_cons] at hi
          by_cases hix : i = xs.length
          · subst hix; rwa [show it + 1 + xs.length = it + xs.length + 1 by omega]
          · rw [f1 _ (by omega), show it + 1 + i = it + (i + 1) by omega]
            exact hr _ (by omega)
        obtain ⟨m2, e2, s2, r2, f2⟩ := Mem.relocateRange_spec hb1 hraw1 (by simp only [List.length_cons]; omega)
        simp only [List.length_cons] at e2 r2 f2
        refine ⟨m2, y :: (x :: xs), ?_, ?_, ?_, r2, ?_⟩
        · rw [show b + xs.length + 1 - b = xs.length + 1 by omega]; exact e2
        · rw [Mem.seg_cons]
          refine ⟨?_, s2⟩
          rw [f2 it (by omega)]; exact d1
        · exact IsStableSort.cons_right h (by simpa using IsStableSort.refl hsx) (fun z hz => by simp at hz) hxy
        · intro a ha
          rw [f2 a (by omega), f1 a (by omega)]
      | cons y' ys =>
        simp only [List.length_cons] at *
        rw [if_neg (by omega)]
        obtain ⟨m', zs, e, s, hst, hr', hfr⟩ := mergeFrontLoop_spec h f (m := m1) (xs := xs) (x := x) (ys := ys) (y := y') (it := it + 1) (b := b) (by omega)
          hb1
          (by
            have := hs'.frame f1 (fun i hi => by simp at hi; omega)
            rwa [show it + xs.length + 1 + 1 = it + 1 + xs.length + 1 by omega] at this)
          (fun i hi => by
            by_cases hix : i = xs.length
            · subst hix; rwa [show it + 1 + xs.length = it + xs.length + 1 by omega]
            · rw [f1 _ (by omega), show it + 1 + i = it + (i + 1) by omega]
              exact hr _ (by omega))
          (by omega) hsx hsy.tail
        refine ⟨m', y :: zs, ?_, ?_, hst.cons_right h hy0 hxy, hr', ?_⟩
        · rw [← e]; congr 1 <;> omega
        · rw [Mem.seg_cons]
          refine ⟨?_, s⟩
          rw [hfr it (by omega)]; exact d1
        · intro a ha
          rw [hfr a (by omega), f1 a (by omega)]
    | false =>
      rw [if_neg (by simp)]
      obtain ⟨m1, e1, d1, r1, f1⟩ := Mem.relocateAt_spec hx hraw
      simp only [e1, Option.bind_some]
      have hxall : ∀ z ∈ xs ++ (y :: ys), lt z x = false := by
        intro z hz
        rcases List.mem_append.1 hz with hz | hz
        · exact hx0 z hz
        · rcases List.mem_cons.1 hz with rfl | hz
          · exact hl
          · exact h.negTrans hl (hy0 z hz)
      have hs1 : m1.Seg (it + xs.length + 1) (y :: ys) := hs.frame f1 (fun i hi => by simp at hi; omega)
      cases xs with
      | nil =>
        simp only [List.length_nil, Nat.add_zero, List.nil_append] at *
        rw [if_pos trivial]
        refine ⟨m1, x :: (y :: ys), rfl, ?_, ?_, ?_, ?_⟩
        · rw [Mem.seg_cons]; exact ⟨d1, hs1⟩
        · exact (IsStableSort.refl hsy).cons_left hxall
        · intro i hi
          have : i = 0 := by omega
          subst this; exact r1
        · intro a ha
          exact f1 a (by omega)
      | cons x' xs =>
        simp only [List.length_cons] at *
        rw [if_neg (by omega)]
        obtain ⟨m', zs, e, s, hst, hr', hfr⟩ := mergeFrontLoop_spec h f (m := m1) (xs := xs) (x := x') (ys := ys) (y := y) (it := it + 1) (b := b + 1) (by omega)
          (hb'.frame f1 (fun i hi => by simp at hi; omega))
          (by rwa [show it + 1 + xs.length + 1 = it + (xs.length + 1) + 1 by omega])
          (fun i hi => by
            rw [f1 _ (by omega), show it + 1 + i = it + (i + 1) by omega]
            exact hr _ (by omega))
          (by omega) hsx.tail hsy
        refine ⟨m', x :: zs, ?_, ?_, hst.cons_left hxall, ?_, ?_⟩
        · rw [← e]; congr 1 <;> omega
        · rw [Mem.seg_cons]
          refine ⟨?_, s⟩
          rw [hfr it (by omega)]; exact d1
        · intro i hi
          cases i with
          | zero => rw [Nat.add_zero, hfr _ (by omega)]; exact r1
          | succ i => rw [show b + (i + 1) = b + 1 + i by omega]; exact hr' i (by omega)
        · intro a ha
          rw [hfr a (by omega), f1 a (by omega)]

/-- Sorting parts first does not matter for being sorted. -/
theorem IsSort.append_congr {lt : α → α → Bool} {xs xs' ys ys' zs : List α} (hx : IsSort lt xs xs') (hy : IsSort lt ys ys')
    (hz : IsStableSort lt (xs' ++ ys') zs) : IsSort lt (xs ++ ys) zs := ⟨hz.sorted, hz.perm.trans (hx.perm.append hy.perm)⟩

/-- `fixed_size_merge_sort` sorts, stably unless one of the parts is four cheaply sortable elements;
the local storage is raw again. Missing for "stable": that case (see `C39_branchless_stable_violated`). -/
theorem C40_fixed_size_merge_sort_partial {lt : α → α → Bool} (h : StrictWeak lt) (cheap : Bool) {m : Mem α} {it buffer temp : Nat} {xs ys : List α}
    (hs : m.Seg it (xs ++ ys)) (h1 : 1 ≤ xs.length) (h14 : xs.length ≤ 4) (h2 : 1 ≤ ys.length) (h25 : ys.length ≤ 5)
    (hrb : m.Raw buffer xs.length) (hrt : m.Raw temp ys.length) (hap : buffer + xs.length ≤ it ∨ it + xs.length + ys.length ≤ buffer) :
    ∃ m' zs, fixedSizeMergeSort cheap lt m it xs.length ys.length buffer temp = some m' ∧ m'.Seg it zs ∧ IsSort lt (xs ++ ys) zs ∧
      (¬ (cheap = true ∧ (xs.length = 4 ∨ ys.length = 4)) → IsStableSort lt (xs ++ ys) zs) ∧ m.SameOff m' (InRange it (xs.length + ys.length)) := by
  obtain ⟨hs1, hs2⟩ := Mem.seg_append.1 hs
  obtain ⟨m1, ys', e1, s1, so1, st1, f1⟩ := C39_sort_exactly_partial h cheap h2 h25 hs2 hrt
  obtain ⟨m2, xs', e2, s2, r2, so2, st2, f2⟩ := C39_relocate_partial h cheap h1 h14 (m := m1) (it := it) (out := buffer)
    (hs1.frame f1 (fun i hi => by omega)) (hrb.frame f1 (fun i hi => by omega))
  have hxl := so2.perm.length_eq
  have hyl := so1.perm.length_eq
  cases hx' : xs' with
  | nil => rw [hx'] at hxl; simp at hxl; omega
  | cons x xt =>
    cases hy' : ys' with
    | nil => rw [hy'] at hyl; simp at hyl; omega
    | cons y yt =>
      subst hx' hy'
      simp only [List.length_cons] at hxl hyl
      obtain ⟨m3, zs, e3, s3, st3, r3, f3⟩ := mergeFrontLoop_spec h (xs.length + ys.length) (m := m2) (xs := xt) (ys := yt) (x := x) (y := y) (it := it) (b := buffer)
        (by omega) s2
        (by
          have := s1.frame f2 (fun i hi => by simp at hi; omega)
          rwa [show it + xs.length = it + xt.length + 1 by omega] at this)
        (by rwa [← hxl] at r2) (by omega) so2.sorted so1.sorted
      refine ⟨m3, zs, ?_, s3, IsSort.append_congr so2 so1 st3, fun hc => ?_, ?_⟩
      · rw [fixedSizeMergeSort, e1]
        simp only [Option.bind_eq_bind, Option.bind_some, e2]
        rw [← e3]; congr 1 <;> omega
      · refine IsStableSort.append_congr (st2 fun hh => hc ⟨hh.1, .inl hh.2⟩) (st1 fun hh => hc ⟨hh.1, .inr hh.2⟩) st3
      · intro a ha
        by_cases hab : InRange buffer xs.length a
        · have b1 := hrb (a - buffer) (by omega)
          have b2 := r3 (a - buffer) (by omega)
          rw [show buffer + (a - buffer) = a by omega] at b1 b2
          rw [b1, b2]
        · rw [f3 a (by omega), f2 a (by omega), f1 a (by omega)]

/-! ## chunked_insertion_sort -/

/-- The loop sorts as long as the part sorted so far begins with an element not greater than any to come. -/
theorem chunkLoop_spec {lt : α → α → Bool} (h : StrictWeak lt) (cheap : Bool) {first buffer : Nat} : ∀ (k : Nat) {m : Mem α} {done todo ws : List α},
    m.Seg first (ws ++ todo) → todo.length = 4 * k → m.Raw buffer 4 → (buffer + 4 ≤ first ∨ first + (ws ++ todo).length ≤ buffer) →
    IsSort lt done ws → (¬ cheap = true → IsStableSort lt done ws) → (done = [] ∨ ∃ a ∈ done, ∀ b ∈ todo, lt b a = false) →
    (done = [] → ∃ a ∈ todo.take 4, ∀ b ∈ todo, lt b a = false) →
    ∃ m' zs, chunkLoop cheap lt first buffer k m (first + ws.length) = some m' ∧ m'.Seg first zs ∧ IsSort lt (done ++ todo) zs ∧
      (¬ cheap = true → IsStableSort lt (done ++ todo) zs) ∧ m.SameOff m' (InRange first (ws.length + todo.length))
  | 0, m, done, todo, ws, hs, hl, hr, hap, so, st, hmin, hmin0 => by
    have : todo = [] := List.eq_nil_of_length_eq_zero (by omega)
    subst this
    simp only [List.append_nil] at *
    exact ⟨m, ws, rfl, hs, so, st, fun _ _ => rfl⟩
  | k + 1, m, done, todo, ws, hs, hl, hr, hap, so, st, hmin, hmin0 => by
    obtain ⟨ch, rest, hsplit, hcl⟩ : ∃ ch rest, todo = ch ++ rest ∧ ch.length = 4 := ⟨todo.take 4, todo.drop 4, (List.take_append_drop _ _).symm, by simp; omega⟩
    subst hsplit
    simp only [List.length_append] at hl hap
    obtain ⟨hs1, hs2⟩ := Mem.seg_append.1 hs
    obtain ⟨hs3, hs4⟩ := Mem.seg_append.1 hs2
    obtain ⟨m1, cs, e1, s1, r1, so1, st1, f1⟩ := C39_relocate_partial h cheap (by omega) (by omega) hs3 (out := buffer) (by rw [hcl]; exact hr)
    have hcsl : cs.length = 4 := so1.perm.length_eq.trans hcl
    have hst1 : ¬ cheap = true → IsStableSort lt ch cs := fun hc => st1 fun hh => hc hh.1
    rw [hcl] at e1 r1 f1
    have hhead : ∀ a b, ws[0]? = some a → cs[0]? = some b → lt b a = false := by
      intro a b ha hb
      have haw : a ∈ ws := List.mem_of_getElem? ha
      have hbc : b ∈ ch := so1.perm.mem_iff.1 (List.mem_of_getElem? hb)
      rcases hmin with hnil | ⟨a', ha', hle⟩
      · subst hnil
        have := so.perm.length_eq
        simp at this
        rw [this] at ha; simp at ha
      · have h1 := hle b (by simp [hbc])
        have h2 : lt a' a = false := by
          obtain ⟨i, hi, he⟩ := List.mem_iff_getElem.1 (so.perm.mem_iff.2 ha')
          subst he
          cases i with
          | zero =>
            rw [List.getElem?_eq_getElem hi] at ha
            injection ha with ha
            rw [← ha]; exact h.irrefl _
          | succ i =>
            have h0 : 0 < ws.length := by omega
            rw [List.getElem?_eq_getElem h0] at ha
            injection ha with ha
            rw [← ha]
            exact List.pairwise_iff_getElem.1 so.sorted 0 (i + 1) h0 hi (by omega)
        exact h.negTrans h2 h1
    obtain ⟨m2, zs, e2, s2, st2, r2, f2⟩ := C40_merge_relocate_partial h (m := m1) (first1 := first) (first2 := buffer) (xs := ws) (ys := cs)
      ⟨hs1.frame f1 (fun i hi => by omega), s1, by rwa [hcsl], by omega⟩ so.sorted so1.sorted (by rintro rfl; simp at hcsl) hhead
    have hzl := st2.perm.length_eq
    rw [List.length_append] at hzl
    have hwl : ws.length = done.length := so.perm.length_eq
    obtain ⟨m3, zs', e3, s3, so3, st3, f3⟩ := chunkLoop_spec h cheap k (m := m2) (done := done ++ ch) (todo := rest) (ws := zs)
      (by
        rw [Mem.seg_append]
        refine ⟨s2, ?_⟩
        have := (hs4.frame f1 (fun i hi => by omega)).frame f2 (fun i hi => by omega)
        rwa [show first + ws.length + ch.length = first + zs.length by omega] at this)
      (by omega)
      (by rw [← hcsl]; exact r2)
      (by rw [List.length_append]; omega)
      (IsSort.append_congr so so1 st2)
      (fun hc => IsStableSort.append_congr (st hc) (hst1 hc) st2)
      (by
        rcases hmin with hnil | ⟨a, ha, hle⟩
        · obtain ⟨a, ha, hle⟩ := hmin0 hnil
          rw [List.take_append_of_le_length (by omega), List.take_of_length_le (by omega)] at ha
          exact .inr ⟨a, by simp [ha], fun b hb => hle b (by simp [hb])⟩
        · exact .inr ⟨a, by simp [ha], fun b hb => hle b (by simp [hb])⟩)
      (fun hc => by
        have := congrArg List.length hc
        rw [List.length_append, List.length_nil] at this
        omega)
    refine ⟨m3, zs', ?_, s3, by simpa using so3, by simpa using st3, ?_⟩
    · rw [chunkLoop, e1]
      simp only [Option.bind_eq_bind, Option.bind_some]
      rw [hcsl] at e2
      rw [e2]
      simp only [Option.bind_some]
      rw [← e3]; congr 1; omega
    · intro a ha
      simp only [List.length_append] at ha
      by_cases hab : InRange buffer 4 a
      · have b1 := hr (a - buffer) (by omega)
        have b2 := r2 (a - buffer) (by omega)
        rw [show buffer + (a - buffer) = a by omega] at b1 b2
        rw [f3 a (by omega), b1, b2]
      · rw [f3 a (by omega), f2 a (by omega), f1 a (by omega)]

/-- `chunked_insertion_sort` sorts when a smallest element is in the first block (the first
`size % 4` elements, or four when there is no rest), stably unless the elements are cheaply
sortable. Missing: other inputs, see `C40_chunked_insertion_sort_violated`. -/
theorem C40_chunked_insertion_sort_partial {lt : α → α → Bool} (h : StrictWeak lt) (cheap : Bool) {m : Mem α} {first buffer temp : Nat} {xs : List α}
    (hs : m.Seg first xs) (hrb : m.Raw buffer 4) (hrt : m.Raw temp 5) (hap : buffer + 4 ≤ first ∨ first + xs.length ≤ buffer)
    (hmin : xs = [] ∨ ∃ a ∈ xs.take (if xs.length % 4 = 0 then 4 else xs.length % 4), ∀ b ∈ xs, lt b a = false) :
    ∃ m' zs, chunkedInsertionSort cheap lt m first xs.length buffer temp = some m' ∧ m'.Seg first zs ∧ IsSort lt xs zs ∧
      (¬ cheap = true → IsStableSort lt xs zs) ∧ m.SameOff m' (InRange first xs.length) := by
  have hsplit : xs.take (xs.length % 4) ++ xs.drop (xs.length % 4) = xs := List.take_append_drop _ _
  have hml : xs.length % 4 ≤ xs.length := Nat.mod_le _ _
  have htl : (xs.take (xs.length % 4)).length = xs.length % 4 := by simp; omega
  have hdl : (xs.drop (xs.length % 4)).length = 4 * (xs.length / 4) := by rw [List.length_drop]; omega
  have hs' := hs
  rw [← hsplit] at hs'
  obtain ⟨hs1, hs2⟩ := Mem.seg_append.1 hs'
  have hlt : xs.length % 4 < 4 := Nat.mod_lt _ (by omega)
  obtain ⟨m1, ws, e1, s1, so1, st1, f1⟩ := smallSort_spec h cheap (large := fun _ _ _ => none) hs1 hrt (fun hc => by omega)
  rw [htl] at e1 st1 f1
  have hwl : ws.length = xs.length % 4 := so1.perm.length_eq.trans htl
  have hst1 : IsStableSort lt (xs.take (xs.length % 4)) ws := st1 (by
    have : (xs.length % 4 == 4) = false := by simp; omega
    rw [this]; simp; omega)
  by_cases hx : xs = []
  · subst hx
    have : ws = [] := List.eq_nil_of_length_eq_zero (by simpa using hwl)
    subst this
    refine ⟨m1, [], ?_, s1, by simpa using so1, fun _ => by simpa using hst1, fun a ha => f1 a (by simpa using ha)⟩
    rw [chunkedInsertionSort, List.length_nil]
    simp only [List.length_nil] at e1
    rw [e1]; rfl
  · obtain ⟨a, ha, hle⟩ := hmin.resolve_left hx
    obtain ⟨m2, zs, e2, s2, so2, st2, f2⟩ := chunkLoop_spec h cheap (first := first) (buffer := buffer) (xs.length / 4) (m := m1) (done := xs.take (xs.length % 4))
      (todo := xs.drop (xs.length % 4)) (ws := ws)
      (by
        rw [Mem.seg_append]
        refine ⟨s1, ?_⟩
        have := hs2.frame f1 (fun i hi => by omega)
        rw [htl] at this
        rwa [hwl])
      hdl (hrb.frame f1 (fun i hi => by omega)) (by rw [List.length_append, hwl, hdl]; omega) so1 (fun _ => hst1)
      (by
        by_cases h0 : xs.length % 4 = 0
        · exact .inl (by rw [h0]; rfl)
        · rw [if_neg h0] at ha
          exact .inr ⟨a, ha, fun b hb => hle b (List.mem_of_mem_drop hb)⟩)
      (fun hnil => by
        have h0 : xs.length % 4 = 0 := by rw [← htl, hnil]; rfl
        rw [if_pos h0] at ha
        rw [h0]
        exact ⟨a, by simpa using ha, fun b hb => hle b (by simpa using hb)⟩)
    rw [hsplit] at so2 st2
    refine ⟨m2, zs, ?_, s2, so2, st2, ?_⟩
    · rw [chunkedInsertionSort, e1]
      simp only [Option.bind_eq_bind, Option.bind_some]
      rw [← e2, hwl]
    · intro b hb
      rw [f2 b (by rw [hwl, hdl]; omega), f1 b (by omega)]

/-- `chunked_insertion_sort` of `4, 0, 1, 2, 3` leaves a cell of the range without an element: the sort
inherits the defect of the merge. -/
theorem C40_chunked_insertion_sort_violated :
    ∃ (m m' : Mem Nat), m.Seg 0 [4, 0, 1, 2, 3] ∧ m.Raw 10 4 ∧ m.Raw 20 5 ∧
      chunkedInsertionSort false (fun a b => decide (a < b)) m 0 5 10 20 = some m' ∧ m' 3 = none ∧ m' 13 = some 3 := by
  refine ⟨fun a => [4, 0, 1, 2, 3][a]?, _, ?_, ?_, ?_, rfl, rfl, rfl⟩
  · intro i hi
    simp only [Nat.zero_add]
    exact List.getElem?_eq_getElem hi
  · intro i hi
    exact List.getElem?_eq_none (by simp; omega)
  · intro i hi
    exact List.getElem?_eq_none (by simp; omega)

/-! ## Examples -/

/-- The hypotheses of the partial theorem hold for a sort that does more than nothing. -/
example : (chunkedInsertionSort false (fun a b => decide (a < b)) (fun a => [0, 9, 3, 2, 1, 7, 7, 5, 6][a]?) 0 9 20 30).map
    (fun m => (List.range 9).map m) = some [some 0, some 1, some 2, some 3, some 5, some 6, some 7, some 7, some 9] := by decide +kernel

example : (mergeRelocateSecond (fun a b : Nat => decide (a < b)) (fun a => if a < 3 then [1, 4, 6][a]? else if a < 10 then none else [2, 5][a - 10]?) 0 3 10 12 5).map
    (fun m => (List.range 5).map m) = some [some 1, some 2, some 4, some 5, some 6] := by decide +kernel

example : (fixedSizeMergeSort true (fun a b : Nat => decide (a < b)) (fun a => [5, 3, 9, 1, 4][a]?) 0 2 3 10 20).map
    (fun m => (List.range 5).map m) = some [some 1, some 3, some 4, some 5, some 9] := by decide +kernel

end Verif.Algo
