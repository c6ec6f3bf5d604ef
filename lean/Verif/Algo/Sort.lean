import Mathlib.Data.List.Nodup
import Verif.Algo.Merge

/-!
# Introspective sort (C38)

`containers/algorithms/sort/sort.cpp`. `heap_sort` calls `std::make_heap` and `std::sort_heap`; it is a
parameter with the specification the standard gives those functions. `containers::sort` is
`std::sort` and is not modelled.
-/

namespace Verif.Algo

variable {α : Type}

/-! ## The model -/

/-- The arguments of `median_of(first, median, before_last)`, then the local storage (`sort.cpp` 66). -/
def median3 (first n temp : Nat) : Nat → Nat
  | 0 => first
  | 1 => first + n / 2
  | 2 => first + n - 1
  | _ => temp

/-- The arguments of `median_of` for long ranges (`sort.cpp` 64). -/
def median5 (first n temp : Nat) : Nat → Nat
  | 0 => first
  | 1 => first + n / 4
  | 2 => first + n / 2
  | 3 => first + n / 2 + n / 4
  | 4 => first + n - 1
  | _ => temp

/-- The selection of the pivot (`sort.cpp` 63-67). -/
def sortMedians (lt : α → α → Bool) (temp : Nat) (m : Mem α) (first n : Nat) : Option (Mem α) :=
  if n ≥ 1000 then inPlace5.run lt (median5 first n temp) m else inPlace3.run lt (median3 first n temp) m

/-- `introsort` and `introsort_impl` with the remaining depth (`sort.cpp` 45-77). -/
def introsort (cheap : Bool) (lt : α → α → Bool) (temp : Nat) (heap : Mem α → Nat → Nat → Option (Mem α)) : Nat → Mem α → Nat → Nat → Option (Mem α)
  | 0, m, first, n => smallSort cheap lt temp heap m first n
  | depth + 1, m, first, n => smallSort cheap lt temp (fun m first n => do
      let m ← sortMedians lt temp m first n
      let (m, median) ← iteratorPartition lt m first (first + n / 2) (first + n)
      let m ← introsort cheap lt temp heap depth m first (median - first)
      introsort cheap lt temp heap depth m median (first + n - median)) m first n

/-- `new_sort` (`sort.cpp` 79-92). When the size type cannot hold two the call to `introsort` is left
out, which makes no difference for ranges of at most one element. -/
def newSort (cheap : Bool) (lt : α → α → Bool) (temp : Nat) (heap : Mem α → Nat → Nat → Option (Mem α)) (m : Mem α) (first n : Nat) : Option (Mem α) := do
  let m ← introsort cheap lt temp heap (2 * Nat.log2 n) m first n
  let b ← isSorted m lt first n
  if b then some m else none

/-- What `std::make_heap` followed by `std::sort_heap` guarantees. -/
def HeapSorts (lt : α → α → Bool) (heap : Mem α → Nat → Nat → Option (Mem α)) : Prop :=
  ∀ m first xs, m.Seg first xs → SortsRange false lt m first xs (heap m first xs.length)

/-! ## Rearranging elements at some positions -/

theorem range_split {n : Nat} {ps : List Nat} (hn : ps.Nodup) (hps : ∀ p ∈ ps, p < n) :
    (List.range n).Perm (ps ++ (List.range n).filter (fun i => !ps.contains i)) := by
  refine (List.perm_ext_iff_of_nodup List.nodup_range ?_).2 ?_
  · rw [List.nodup_append]
    refine ⟨hn, List.nodup_range.filter _, ?_⟩
    rintro a ha b hb rfl
    have := (List.mem_filter.1 hb).2
    simp [ha] at this
  · intro a
    simp only [List.mem_range, List.mem_append, List.mem_filter, List.contains_eq_mem, Bool.not_eq_true', decide_eq_false_iff_not]
    constructor
    · intro h
      by_cases hp : a ∈ ps
      · exact .inl hp
      · exact .inr ⟨h, hp⟩
    · rintro (h | h)
      · exact hps a h
      · exact h.1

/-- Memory whose cells at some positions of a range were rearranged and which is otherwise unchanged
holds a rearrangement of the range. -/
theorem rearranged {m m' : Mem α} {first : Nat} {xs : List α} (h : m.Seg first xs) {ps : List Nat} (hn : ps.Nodup) (hps : ∀ p ∈ ps, p < xs.length)
    {as ys : List α} (ha : ps.map (fun p => m (first + p)) = as.map some) (hy : ps.map (fun p => m' (first + p)) = ys.map some) (hp : ys.Perm as)
    (hf : ∀ i, i < xs.length → i ∉ ps → m' (first + i) = m (first + i)) : ∃ zs, zs.Perm xs ∧ m'.Seg first zs := by
  have hlive : ∀ i, i < xs.length → ∃ v, m' (first + i) = some v := by
    intro i hi
    by_cases hip : i ∈ ps
    · have : m' (first + i) ∈ ps.map (fun p => m' (first + p)) := List.mem_map_of_mem (f := fun p => m' (first + p)) hip
      rw [hy] at this
      obtain ⟨v, _, hv⟩ := List.mem_map.1 this
      exact ⟨v, hv.symm⟩
    · exact ⟨_, (hf i hi hip).trans (h i hi)⟩
  obtain ⟨zs, hzs⟩ : ∃ zs : List α, (List.range xs.length).map (fun p => m' (first + p)) = zs.map some := by
    refine ⟨(List.range xs.length).filterMap (fun p => m' (first + p)), ?_⟩
    have : ∀ l : List Nat, (∀ i ∈ l, i < xs.length) → l.map (fun p => m' (first + p)) = (l.filterMap (fun p => m' (first + p))).map some := by
      intro l
      induction l with
      | nil => intro _; rfl
      | cons i l ih =>
        intro hl
        obtain ⟨v, hv⟩ := hlive i (hl i (by simp))
        rw [List.map_cons, List.filterMap_cons, hv, List.map_cons, ih fun j hj => hl j (by simp [hj])]
    exact this _ fun i hi => by simpa using hi
  have hxs : (List.range xs.length).map (fun p => m (first + p)) = xs.map some := by
    apply List.ext_getElem
    · simp
    · intro i h1 h2
      simp only [List.length_map] at h2
      simp [h i h2]
  have hsp := range_split hn hps
  refine ⟨zs, ?_, ?_⟩
  · have hinj : Function.Injective (some : α → Option α) := fun a b hab => by injection hab
    have e1 : (zs.map some).Perm (xs.map some) := by
      rw [← hzs, ← hxs]
      refine (hsp.map _).trans (.trans ?_ (hsp.map _).symm)
      rw [List.map_append, List.map_append, ha, hy]
      refine (hp.map some).append ?_
      rw [List.map_congr_left]
      intro i hi
      obtain ⟨h1, h2⟩ := List.mem_filter.1 hi
      exact hf i (by simpa using h1) (by simpa using h2)
    have e2 := e1.filterMap id
    simpa [List.filterMap_map] using e2
  · have hzl : zs.length = xs.length := by
      have := congrArg List.length hzs
      simpa using this.symm
    refine seg_of_get fun i hi => ?_
    have := congrArg (fun l => l[i]?) hzs
    simp only [List.getElem?_map, List.getElem?_range (show i < xs.length by omega), Option.map_some] at this
    rw [List.getElem?_eq_getElem hi] at this ⊢
    simpa using this

theorem Mem.Seg.not_raw {m : Mem α} {b t n : Nat} {xs : List α} (h : m.Seg b xs) (hr : m.Raw t n) {i : Nat} (hi : i < n) : ¬ InRange b xs.length (t + i) := by
  intro hc
  have := h (t + i - b) (by omega)
  rw [show b + (t + i - b) = t + i by omega, hr i hi] at this; cases this

/-- Elements at distinct positions of a range, and local storage. -/
structure Positions (first temp n len : Nat) (ad : Nat → Nat) : Prop where
  lt : ∀ i, i < n → first ≤ ad i ∧ ad i < first + len
  inj : ∀ i j, i < n → j < n → ad i = ad j → i = j
  temp : ad n = temp

theorem Positions.get {m : Mem α} {first temp n : Nat} {xs : List α} {ad : Nat → Nat} (hp : Positions first temp n xs.length ad) (hs : m.Seg first xs) (d : α)
    (i : Nat) (hi : i < n) : m (ad i) = some (xs.getD (ad i - first) d) := by
  have h := hp.lt i hi
  have := hs (ad i - first) (by omega)
  rw [show first + (ad i - first) = ad i by omega] at this
  rw [this, List.getD_eq_getElem?_getD, List.getElem?_eq_getElem (by omega)]; rfl

theorem Positions.placed {m : Mem α} {first temp n : Nat} {xs : List α} {ad : Nat → Nat} (hp : Positions first temp n xs.length ad) (hs : m.Seg first xs)
    (ht : m temp = none) (d : α) : Placed ad (fun i => xs.getD (ad i - first) d) n (n + 1) m := by
  have hout : ∀ i, i < n → ad i ≠ temp := by
    intro i hi he
    have := hp.get hs d i hi
    rw [he, ht] at this; cases this
  refine ⟨?_, hp.get hs d, ?_, by omega⟩
  · intro i j hi hj he
    by_cases h1 : i = n
    · by_cases h2 : j = n
      · omega
      · rw [h1, hp.temp] at he
        exact absurd he.symm (hout _ (by omega))
    · by_cases h2 : j = n
      · rw [h2, hp.temp] at he
        exact absurd he (hout _ (by omega))
      · exact hp.inj i j (by omega) (by omega) he
  · intro i h1 h2
    have : i = n := by omega
    rw [this, hp.temp]; exact ht

/-- Rearranging the elements at these positions rearranges the range. -/
theorem Positions.rearranges {m m' : Mem α} {first temp n : Nat} {xs : List α} {ad : Nat → Nat} (hp : Positions first temp n xs.length ad) (hs : m.Seg first xs)
    {d : α} {ys : List α} (hl : ys.length = n) (hy : ∀ i (hi : i < ys.length), m' (ad i) = some ys[i])
    (hperm : ys.Perm ((List.range n).map fun i => xs.getD (ad i - first) d)) (fr : Mem.SameOff m m' (fun x => ∃ i, i < n ∧ x = ad i)) :
    ∃ zs, zs.Perm xs ∧ m'.Seg first zs ∧ m.SameOff m' (InRange first xs.length) := by
  have had : ∀ i, i < n → ad i = first + (ad i - first) := fun i hi => by have := hp.lt i hi; omega
  obtain ⟨zs, hz, hzs⟩ := rearranged (m' := m') hs (ps := (List.range n).map fun i => ad i - first)
    (as := (List.range n).map fun i => xs.getD (ad i - first) d) (ys := ys)
    (by
      refine (List.nodup_map_iff_inj_on List.nodup_range).2 fun i hi j hj he => ?_
      have hi' : i < n := by simpa using hi
      have hj' : j < n := by simpa using hj
      exact hp.inj i j hi' hj' (by rw [had i hi', had j hj', he]))
    (fun p hp' => by
      obtain ⟨i, hi, rfl⟩ := List.mem_map.1 hp'
      have := hp.lt i (by simpa using hi)
      omega)
    (by
      rw [List.map_map, List.map_map]
      refine List.map_congr_left fun i hi => ?_
      have hi' : i < n := by simpa using hi
      rw [Function.comp, ← had i hi', hp.get hs d i hi']; rfl)
    (by
      rw [List.map_map]
      apply List.ext_getElem
      · simp [hl]
      · intro i h1 h2
        simp only [List.length_map] at h2
        simp only [List.getElem_map, List.getElem_range, Function.comp]
        rw [← had i (by omega), hy i h2])
    hperm
    (fun i hi hno => fr _ fun ⟨j, hj, he⟩ => by
      exact hno (List.mem_map.2 ⟨j, by simpa using hj, by omega⟩))
  exact ⟨zs, hz, hzs, fun x hx => fr x fun ⟨i, hi, he⟩ => hx (he ▸ hp.lt i hi)⟩

/-- Sorting elements at given positions with the routine for `n` elements. -/
theorem sort_positions {lt : α → α → Bool} (h : StrictWeak lt) {m : Mem α} {first temp : Nat} {xs : List α} (hs : m.Seg first xs) (ht : m temp = none)
    {n : Nat} (hn : 1 ≤ n) (hn5 : n ≤ 5) {t : Tree} (htree : inPlaceTree n = some t) {ad : Nat → Nat} (hp : Positions first temp n xs.length ad) :
    ∃ m' zs, t.run lt ad m = some m' ∧ zs.Perm xs ∧ m'.Seg first zs ∧ m.SameOff m' (InRange first xs.length) := by
  obtain ⟨d, hd⟩ : ∃ d : α, True := ⟨xs[ad 0 - first]'(by have := hp.lt 0 (by omega); omega), trivial⟩
  obtain ⟨t', m', ys, e0, e, hl, hy, hst, fr⟩ := C39_in_place_anywhere h hn hn5 (hp.placed hs ht d)
  rw [htree] at e0; injection e0 with e0; subst e0
  obtain ⟨zs, h1, h2, h3⟩ := hp.rearranges hs hl hy hst.perm fr
  exact ⟨m', zs, e, h1, h2, h3⟩

theorem median5_positions {first temp n : Nat} (hn : 1000 ≤ n) : Positions first temp 5 n (median5 first n temp) := by
  refine ⟨?_, ?_, rfl⟩
  · intro i hi
    match i, hi with
    | 0, _ => simp only [median5]; omega
    | 1, _ => simp only [median5]; omega
    | 2, _ => simp only [median5]; omega
    | 3, _ => simp only [median5]; omega
    | 4, _ => simp only [median5]; omega
  · intro i j hi hj he
    match i, j, hi, hj with
    | 0, 0, _, _ => rfl
    | 0, 1, _, _ => simp only [median5] at he; omega
    | 0, 2, _, _ => simp only [median5] at he; omega
    | 0, 3, _, _ => simp only [median5] at he; omega
    | 0, 4, _, _ => simp only [median5] at he; omega
    | 1, 0, _, _ => simp only [median5] at he; omega
    | 1, 1, _, _ => rfl
    | 1, 2, _, _ => simp only [median5] at he; omega
    | 1, 3, _, _ => simp only [median5] at he; omega
    | 1, 4, _, _ => simp only [median5] at he; omega
    | 2, 0, _, _ => simp only [median5] at he; omega
    | 2, 1, _, _ => simp only [median5] at he; omega
    | 2, 2, _, _ => rfl
    | 2, 3, _, _ => simp only [median5] at he; omega
    | 2, 4, _, _ => simp only [median5] at he; omega
    | 3, 0, _, _ => simp only [median5] at he; omega
    | 3, 1, _, _ => simp only [median5] at he; omega
    | 3, 2, _, _ => simp only [median5] at he; omega
    | 3, 3, _, _ => rfl
    | 3, 4, _, _ => simp only [median5] at he; omega
    | 4, 0, _, _ => simp only [median5] at he; omega
    | 4, 1, _, _ => simp only [median5] at he; omega
    | 4, 2, _, _ => simp only [median5] at he; omega
    | 4, 3, _, _ => simp only [median5] at he; omega
    | 4, 4, _, _ => rfl

theorem median3_positions {first temp n : Nat} (hn : 5 < n) : Positions first temp 3 n (median3 first n temp) := by
  refine ⟨?_, ?_, rfl⟩
  · intro i hi
    match i, hi with
    | 0, _ => simp only [median3]; omega
    | 1, _ => simp only [median3]; omega
    | 2, _ => simp only [median3]; omega
  · intro i j hi hj he
    match i, j, hi, hj with
    | 0, 0, _, _ => rfl
    | 0, 1, _, _ => simp only [median3] at he; omega
    | 0, 2, _, _ => simp only [median3] at he; omega
    | 1, 0, _, _ => simp only [median3] at he; omega
    | 1, 1, _, _ => rfl
    | 1, 2, _, _ => simp only [median3] at he; omega
    | 2, 0, _, _ => simp only [median3] at he; omega
    | 2, 1, _, _ => simp only [median3] at he; omega
    | 2, 2, _, _ => rfl

theorem sortMedians_spec {lt : α → α → Bool} (h : StrictWeak lt) {m : Mem α} {first temp : Nat} {xs : List α} (hs : m.Seg first xs) (ht : m temp = none)
    (hn : 5 < xs.length) :
    ∃ m' zs, sortMedians lt temp m first xs.length = some m' ∧ zs.Perm xs ∧ m'.Seg first zs ∧ m.SameOff m' (InRange first xs.length) := by
  rw [sortMedians]
  split
  · exact sort_positions h hs ht (by omega) (by omega) rfl (median5_positions (by omega))
  · exact sort_positions h hs ht (by omega) (by omega) rfl (median3_positions hn)

/-! ## introsort -/

/-- `introsort` sorts every range, whatever depth it is given. -/
theorem C38_introsort {lt : α → α → Bool} (h : StrictWeak lt) (cheap : Bool) {heap : Mem α → Nat → Nat → Option (Mem α)} (hheap : HeapSorts lt heap) {temp : Nat} :
    ∀ (depth : Nat) {m : Mem α} {first : Nat} {xs : List α}, m.Seg first xs → m.Raw temp 5 →
      SortsRange false lt m first xs (introsort cheap lt temp heap depth m first xs.length)
  | 0, m, first, xs, hs, hr => by
    obtain ⟨m', ys, e, s, so, -, f⟩ := smallSort_spec h cheap (large := heap) hs hr (fun _ => hheap m first xs hs)
    exact ⟨m', ys, e, s, so, fun hc => (by cases hc), f⟩
  | depth + 1, m, first, xs, hs, hr => by
    obtain ⟨m', ys, e, s, so, -, f⟩ := smallSort_spec h cheap (temp := temp) (large := fun m first n => do
      let m ← sortMedians lt temp m first n
      let (m, median) ← iteratorPartition lt m first (first + n / 2) (first + n)
      let m ← introsort cheap lt temp heap depth m first (median - first)
      introsort cheap lt temp heap depth m median (first + n - median)) hs hr (fun hn => by
        obtain ⟨m1, xs1, e1, p1, s1, f1⟩ := sortMedians_spec h hs (temp := temp) (by simpa using hr 0 (by omega)) hn
        have hl1 := p1.length_eq
        have hr1 : m1.Raw temp 5 := hr.frame f1 (fun i hi => hs.not_raw hr hi)
        obtain ⟨v, hv⟩ : ∃ v, xs1[xs.length / 2]? = some v := ⟨_, List.getElem?_eq_getElem (by omega)⟩
        obtain ⟨m2, xs2, k, e2, s2, ip, f2⟩ := C37_iterator_partition h.irrefl s1 hv
        rw [hl1] at e2 f2
        have hl2 := ip.perm.length_eq
        have hr2 : m2.Raw temp 5 := hr1.frame f2 (fun i hi => by rw [← hl1]; exact s1.not_raw hr1 hi)
        have hk := ip.le
        obtain ⟨htake, hdrop⟩ := ip.take_drop
        have hsplit : xs2.take k ++ xs2.drop k = xs2 := List.take_append_drop _ _
        have htl : (xs2.take k).length = k := by simp; omega
        have hdl : (xs2.drop k).length = xs.length - k := by simp; omega
        have s2' := s2
        rw [← hsplit, Mem.seg_append, htl] at s2'
        obtain ⟨m3, zs1, e3, s3, so3, -, f3⟩ := C38_introsort h cheap hheap depth s2'.1 hr2
        rw [htl] at e3 f3
        have hr3 : m3.Raw temp 5 := hr2.frame f3 (fun i hi => by rw [← htl]; exact s2'.1.not_raw hr2 hi)
        have hz1 : zs1.length = k := so3.perm.length_eq.trans htl
        have s3' : m3.Seg (first + k) (xs2.drop k) := s2'.2.frame f3 (fun i hi => by omega)
        obtain ⟨m4, zs2, e4, s4, so4, -, f4⟩ := C38_introsort h cheap hheap depth s3' hr3
        rw [hdl] at e4 f4
        refine ⟨m4, zs1 ++ zs2, ?_, ?_, ⟨?_, ?_⟩, fun hc => (by cases hc), ?_⟩
        · simp only [e1, Option.bind_eq_bind, Option.bind_some, e2]
          rw [show first + k - first = k by omega, e3]
          simp only [Option.bind_some]
          rw [← e4]; congr 1; omega
        · rw [Mem.seg_append, hz1]
          exact ⟨s3.frame f4 (fun i hi => by omega), s4⟩
        · rw [sorted_append]
          refine ⟨so3.sorted, so4.sorted, fun x hx y hy => ?_⟩
          have hx' := htake x (so3.perm.mem_iff.1 hx)
          have hy' := hdrop y (so4.perm.mem_iff.1 hy)
          by_contra hcon
          rw [Bool.not_eq_false] at hcon
          rw [h.trans hcon hx'] at hy'; cases hy'
        · refine ((so3.perm.append so4.perm).trans ?_).trans (ip.perm.trans p1)
          rw [hsplit]
        · intro a ha
          rw [f4 a (by omega), f3 a (by omega), f2 a (by omega), f1 a (by omega)])
    exact ⟨m', ys, e, s, so, fun hc => (by cases hc), f⟩

/-- `new_sort` leaves every range a sorted rearrangement; its assertion never fails. -/
theorem C38_new_sort {lt : α → α → Bool} (h : StrictWeak lt) (cheap : Bool) {heap : Mem α → Nat → Nat → Option (Mem α)} (hheap : HeapSorts lt heap) {temp : Nat}
    {m : Mem α} {first : Nat} {xs : List α} (hs : m.Seg first xs) (hr : m.Raw temp 5) :
    ∃ m' ys, newSort cheap lt temp heap m first xs.length = some m' ∧ m'.Seg first ys ∧ IsSort lt xs ys ∧ m.SameOff m' (InRange first xs.length) := by
  obtain ⟨m', ys, e, s, so, -, f⟩ := C38_introsort h cheap hheap (2 * Nat.log2 xs.length) hs hr
  obtain ⟨b, e2, hb⟩ := C38_is_sorted h s
  rw [so.perm.length_eq] at e2
  have : b = true := hb.2 so.sorted
  subst this
  refine ⟨m', ys, ?_, s, so, f⟩
  rw [newSort, e]
  simp only [Option.bind_eq_bind, Option.bind_some, e2, if_true]

/-! ## Examples -/

/-- The assumption on the heap functions can be met, for instance by a merge sort. -/
def refHeap (lt : α → α → Bool) (m : Mem α) (first n : Nat) : Option (Mem α) :=
  let xs := (List.range n).filterMap fun i => m (first + i)
  if xs.length = n then
    let ys := xs.mergeSort (fun a b => !lt b a)
    some fun a => if first ≤ a ∧ a < first + n then ys[a - first]? else m a
  else none

theorem refHeap_sorts {lt : α → α → Bool} (h : StrictWeak lt) : HeapSorts lt (refHeap lt) := by
  intro m first xs hs
  have hxs : (List.range xs.length).filterMap (fun i => m (first + i)) = xs := by
    have h1 : (List.range xs.length).map (fun p => m (first + p)) = xs.map some := by
      apply List.ext_getElem
      · simp
      · intro i h1 h2
        simp only [List.length_map] at h2
        simp [hs i h2]
    have h2 : (List.range xs.length).filterMap (fun i => m (first + i)) = ((List.range xs.length).map (fun p => m (first + p))).filterMap id := by
      rw [List.filterMap_map]; rfl
    rw [h2, h1, List.filterMap_map]; simp
  have hperm := List.mergeSort_perm xs (fun a b => !lt b a)
  refine ⟨fun a => if first ≤ a ∧ a < first + xs.length then (xs.mergeSort (fun a b => !lt b a))[a - first]? else m a,
    xs.mergeSort (fun a b => !lt b a), ?_, ?_, ⟨?_, hperm⟩, fun hc => (by cases hc), ?_⟩
  · rw [refHeap]
    simp only [hxs, if_true]
  · refine seg_of_get fun i hi => ?_
    rw [hperm.length_eq] at hi
    rw [if_pos (by omega), Nat.add_sub_cancel_left]
  · have := List.pairwise_mergeSort (le := fun a b => !lt b a) (fun a b c hab hbc => by
      simp only [Bool.not_eq_true'] at *
      exact h.negTrans hab hbc) (fun a b => by
      cases hl : lt b a
      · simp
      · simp [h.asymm hl]) xs
    exact this.imp fun hab => by simpa using hab
  · intro a ha
    dsimp only
    rw [if_neg ha]

/-- A range long enough for partitioning. -/
example : (newSort true (fun a b : Nat => decide (a < b)) 50 (fun _ _ _ => none) (fun a => [9, 3, 7, 1, 8, 2, 5, 5, 0][a]?) 0 9).map
    (fun m => (List.range 9).map m) = some [some 0, some 1, some 2, some 3, some 5, some 5, some 7, some 8, some 9] := by decide +kernel

end Verif.Algo
