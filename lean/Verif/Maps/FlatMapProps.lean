import Verif.Maps.FlatMap

/-!
# Sorted maps behave as maps (C33)
-/

namespace Verif.Maps

open Verif.Algo Verif.Algo.Mem

variable {κ μ α : Type}

/-- The assumptions about the parameters of a map: keys are ordered, `==` agrees with the order, the radix sort key gives the same order (C43), and
the standard library's algorithms do what the standard says. -/
structure Cfg.Ok (C : Cfg κ μ) : Prop where
  order : StrictWeak C.lt
  eq : ∀ a b, C.eq a b = (!C.lt a b && !C.lt b a)
  desc : ∀ x y, C.desc.less x y = C.lt x.1 y.1
  wf : C.desc.WF
  nonEmpty : C.desc.NonEmpty
  plain : C.desc.Plain
  std : SortsBy C.desc.less C.std

/-- The sizes for which `ska_sort` is known to sort, see C42. -/
def Cfg.SortableSize (C : Cfg κ μ) (n : Nat) : Prop := n ≤ 128 ∨ SafeChain C.desc.chain

/-- The ranges that `ska_sort` is known to sort: besides the ones of these sizes those by one number whose groups of elements with common
leading bytes have the right sizes, see `C42_ska_sort_groups_partial`. -/
def Cfg.Sortable (C : Cfg κ μ) (xs : List (κ × μ)) : Prop := C.SortableSize xs.length ∨ ∃ b f, C.desc = .num b f ∧ GroupsFit f b xs

theorem Cfg.Ok.elt_order {C : Cfg κ μ} (h : C.Ok) : StrictWeak C.elt := h.order.comap _

theorem Cfg.Ok.less {C : Cfg κ μ} (h : C.Ok) : C.desc.less = C.elt := by
  funext x y; exact h.desc x y

theorem Cfg.same_iff {C : Cfg κ μ} {x y : κ × μ} : C.Same x.1 y.1 ↔ equiv C.elt x y = true := by
  rw [equiv_iff]; rfl

theorem Cfg.Same.symm {C : Cfg κ μ} {k k' : κ} (h : C.Same k k') : C.Same k' k := ⟨h.2, h.1⟩

theorem Cfg.Same.trans {C : Cfg κ μ} (ho : StrictWeak C.lt) {a b c : κ} (h : C.Same a b) (h' : C.Same b c) : C.Same a c :=
  ⟨ho.negTrans h'.1 h.1, ho.negTrans h.2 h'.2⟩

theorem Cfg.Same.refl {C : Cfg κ μ} (ho : StrictWeak C.lt) (a : κ) : C.Same a a := ⟨ho.irrefl a, ho.irrefl a⟩

theorem memOf_seg (xs : List α) : Seg (memOf xs) 0 xs := fun i hi => by
  rw [memOf, Nat.zero_add, List.getElem?_eq_getElem hi]

theorem readBack_seg {m : Mem α} {xs : List α} (h : Seg m 0 xs) : readBack m xs.length = some xs := by
  have := mapM_seg h
  simp only [Nat.zero_add] at this
  exact this

/-! ## The algorithms on the contents -/

theorem Cfg.Ok.ska {C : Cfg κ μ} (h : C.Ok) {m : Mem (κ × μ)} {first : Nat} {ys : List (κ × μ)} (hs : Seg m first ys) (hn : C.Sortable ys) :
    ∃ m' ys', skaSort C.std C.desc m first ys.length = some (m', false) ∧ Seg m' first ys' ∧ IsSort C.elt ys ys' ∧
      SameOff m m' (InRange first ys.length) := by
  rw [← h.less]
  rcases hn with (hn | hn) | ⟨b, f, hd, hg⟩
  · exact C42_ska_sort_small h.wf h.nonEmpty h.plain h.std hs hn
  · exact C42_ska_sort_bytes h.wf h.nonEmpty h.plain hn h.std hs
  · have hw := h.wf
    have hstd := h.std
    rw [hd] at hw hstd ⊢
    exact C42_ska_sort_groups_partial hw hstd hs hg

theorem Cfg.Ok.sortFrom {C : Cfg κ μ} (h : C.Ok) {xs ys : List (κ × μ)} (hn : C.Sortable ys) :
    ∃ ys', C.sortFrom (xs ++ ys) xs.length = some (xs ++ ys') ∧ IsSort C.elt ys ys' := by
  obtain ⟨h1, h2⟩ := seg_append.1 (memOf_seg (xs ++ ys))
  rw [Nat.zero_add] at h2
  obtain ⟨m', ys', e, s, so, f⟩ := h.ska h2 hn
  refine ⟨ys', ?_, so⟩
  have hseg : Seg m' 0 (xs ++ ys') := by
    refine seg_append.2 ⟨h1.frame f fun i hi => ?_, by rwa [Nat.zero_add]⟩
    simp only [InRange]; omega
  have hlen : (xs ++ ys).length = (xs ++ ys').length := by
    rw [List.length_append, List.length_append, so.perm.length_eq]
  rw [Cfg.sortFrom, show (xs ++ ys).length - xs.length = ys.length by rw [List.length_append]; omega, e]
  simp only [Option.bind_eq_bind, Option.bind_some]
  rw [hlen, readBack_seg hseg]

theorem Cfg.Ok.uniqueSkaSort {C : Cfg κ μ} (h : C.Ok) {xs : List (κ × μ)} (hn : C.Sortable xs) :
    ∃ ys zs, C.uniqueSkaSort xs = some zs ∧ ys.Perm xs ∧ IsUniqued C.elt ys zs := by
  obtain ⟨ys, e, so⟩ := h.sortFrom (xs := []) hn
  rw [List.nil_append, List.nil_append, List.length_nil] at e
  have heq : (fun x y : κ × μ => C.eq x.1 y.1) = equiv C.elt := by
    funext x y; rw [h.eq]; rfl
  obtain ⟨m', e2, s2, -, -⟩ := C44_unique (mk := C.mv) (eq := equiv C.elt) (objs_seg ys) (fun a b c _ hab => by
    obtain ⟨h1, h2⟩ := equiv_iff.1 hab
    have key : ∀ {a b : κ × μ}, C.elt a b = false → C.elt b a = false → equiv C.elt a c = true → equiv C.elt b c = true := by
      intro a b h1 h2 hac
      obtain ⟨h3, h4⟩ := equiv_iff.1 hac
      exact equiv_iff.2 ⟨h.elt_order.negTrans h3 h2, h.elt_order.negTrans h1 h4⟩
    rw [Bool.eq_iff_iff]
    exact ⟨key h1 h2, key h2 h1⟩)
  simp only [Nat.zero_add] at e2
  refine ⟨ys, firstOfRuns (equiv C.elt) ys, ?_, so.perm, ?_⟩
  · rw [Cfg.uniqueSkaSort, e]
    simp only [Option.bind_eq_bind, Option.bind_some, heq]
    rw [e2]
    simp only [Option.bind_some]
    exact readBack_seg s2
  · have : firstOfRuns (equiv C.elt) ys = firstOfRuns (fun a b => !C.elt a b) ys := firstOfRuns_congr <| so.sorted.imp fun {a b} hab => by
      rw [equiv, hab]; simp
    rw [this, ← dedup_runs (sorted_runs h.elt_order so.sorted)]
    exact dedup_uniqued h.elt_order so.sorted

theorem objs_raw (xs : List α) (n : Nat) : Raw (objs xs) xs.length n := fun i _ => by
  rw [objs, List.getElem?_eq_none (by omega)]; rfl

theorem Cfg.Ok.merge {C : Cfg κ μ} (h : C.Ok) (hk : C.mv ≠ .clearSelf) {xs ys : List (κ × μ)} (hxs : xs.Pairwise fun x y => C.lt x.1 y.1 = true)
    (hn : C.Sortable ys) :
    ∃ ys' zs, C.mergeSortedAndUnsorted false (xs ++ ys) xs.length = some zs ∧ ys'.Perm ys ∧ IsUniqued C.elt (xs ++ ys') zs := by
  obtain ⟨ys', e, so⟩ := h.sortFrom (xs := xs) hn
  obtain ⟨h1, h2⟩ := seg_append.1 (objs_seg (xs ++ ys'))
  obtain ⟨zs, hu, m', e2, s2, -, -⟩ := C44_unique_inplace_merge_partial (tmp := (xs ++ ys').length) h.elt_order hk h1 h2 hxs so.sorted (objs_raw _ _)
  refine ⟨ys', zs, ?_, so.perm, hu⟩
  simp only [Nat.zero_add, ← List.length_append] at e2
  rw [Cfg.mergeSortedAndUnsorted, e]
  simp only [Option.bind_eq_bind, Option.bind_some, Bool.false_eq_true, if_false]
  rw [e2]
  simp only [Option.bind_some]
  exact readBack_seg s2

/-! ## Searching -/

/-- Wherever the search ends, the predicate holds before and does not hold there, even if the elements are not
partitioned. -/
theorem partitionPoint_boundary {m : Mem α} {p : α → Bool} {xs : List α} (h : Seg m 0 xs) :
    ∃ k, k ≤ xs.length ∧ partitionPoint m p 0 xs.length = some k ∧ (∀ hk : k < xs.length, p xs[k] = false) := by
  rw [partitionPoint, if_pos (by omega), Nat.sub_zero]
  have key : ∀ n a, a + n ≤ xs.length → (∀ ha : a + n < xs.length, p (xs[a + n]) = false) →
      ∃ k, a ≤ k ∧ k ≤ a + n ∧ partitionPointLoop m p a n = some k ∧ ∀ hk : k < xs.length, p xs[k] = false := by
    intro n
    induction n using Nat.strongRecOn with
    | _ n ih =>
      intro a han hp
      rw [partitionPointLoop]
      split
      · rename_i hn
        subst hn
        exact ⟨a, by omega, by omega, rfl, hp⟩
      · rename_i hn
        have := h (a + n / 2) (by omega)
        rw [Nat.zero_add] at this
        rw [this]
        dsimp only
        split
        · obtain ⟨k, h1, h2, e, h3⟩ := ih (n - (n / 2 + 1)) (by omega) (a + n / 2 + 1) (by omega) (fun ha => by
            have hp := hp (by omega)
            have : a + n / 2 + 1 + (n - (n / 2 + 1)) = a + n := by omega
            simp only [this]; exact hp)
          exact ⟨k, by omega, by omega, e, h3⟩
        · rename_i hpn
          obtain ⟨k, h1, h2, e, h3⟩ := ih (n / 2) (by omega) a (by omega) (fun _ => by simpa using hpn)
          exact ⟨k, by omega, by omega, e, h3⟩
  obtain ⟨k, _, h2, e, h3⟩ := key xs.length 0 (by omega) (fun ha => by omega)
  exact ⟨k, by omega, e, h3⟩

/-- `find` never gives an element with a different key, whatever the order of the elements. -/
theorem Cfg.find_sound (C : Cfg κ μ) (xs : List (κ × μ)) (k : κ) :
    ∃ i, C.find xs k = some i ∧ (i = xs.length ∨ ∃ h : i < xs.length, C.Same xs[i].1 k) := by
  obtain ⟨i, hi, e, hp⟩ := partitionPoint_boundary (p := fun e => C.lt e.1 k) (memOf_seg xs)
  have e : C.keyedLowerBound xs k = some i := e
  rw [Cfg.find, e]
  simp only [Option.bind_eq_bind, Option.bind_some]
  split
  · exact ⟨_, rfl, .inl rfl⟩
  · have hi' : i < xs.length := by omega
    rw [List.getElem?_eq_getElem hi']
    simp only [Option.bind_some]
    split
    · exact ⟨_, rfl, .inl rfl⟩
    · rename_i hn
      exact ⟨i, rfl, .inr ⟨hi', hp hi', by simpa using hn⟩⟩

theorem partitioned_lt {C : Cfg κ μ} (h : StrictWeak C.lt) {xs : List (κ × μ)} (hxs : Sorted C.elt xs) (k : κ) :
    Partitioned (fun e => C.lt e.1 k) xs := hxs.imp fun {a b} hab hb => h.lt_of_le_of_lt hab hb

theorem partitioned_le {C : Cfg κ μ} (h : StrictWeak C.lt) {xs : List (κ × μ)} (hxs : Sorted C.elt xs) (k : κ) :
    Partitioned (fun e => !C.lt k e.1) xs := by
  refine hxs.imp fun {a b} hab hb => ?_
  simp only [Bool.not_eq_true'] at hb ⊢
  exact h.negTrans hab hb

theorem keyedLowerBound_eq {C : Cfg κ μ} (h : StrictWeak C.lt) {xs : List (κ × μ)} (hxs : Sorted C.elt xs) (k : κ) :
    C.keyedLowerBound xs k = some (xs.countP fun e => C.lt e.1 k) := by
  have := C36_partition_point (memOf_seg xs) (partitioned_lt h hxs k)
  simp only [Nat.zero_add] at this
  exact this

theorem keyedUpperBound_eq {C : Cfg κ μ} (h : StrictWeak C.lt) {xs : List (κ × μ)} (hxs : Sorted C.elt xs) (k : κ) :
    C.keyedUpperBound xs k = some (xs.countP fun e => !C.lt k e.1) := by
  have := C36_partition_point (memOf_seg xs) (partitioned_le h hxs k)
  simp only [Nat.zero_add] at this
  exact this

theorem sorted_of_increasing {C : Cfg κ μ} (h : StrictWeak C.lt) {xs : List (κ × μ)} (hxs : xs.Pairwise fun x y => C.lt x.1 y.1 = true) : Sorted C.elt xs :=
  hxs.imp fun hab => h.asymm hab

/-- `find` of a map returns the position of the element with the key, and the end if there is none. -/
theorem C33_find {C : Cfg κ μ} (h : StrictWeak C.lt) {S : κ × μ → Prop} {xs : List (κ × μ)} (hxs : C.Lists S xs) (k : κ) :
    ∃ i, C.find xs k = some i ∧ ((∃ e, xs[i]? = some e ∧ S e ∧ C.Same e.1 k) ∨ (i = xs.length ∧ ∀ e, S e → ¬ C.Same e.1 k)) := by
  have hs := sorted_of_increasing h hxs.increasing
  have hp := partitioned_lt h hs k
  rw [Cfg.find, keyedLowerBound_eq h hs]
  simp only [Option.bind_eq_bind, Option.bind_some]
  obtain ⟨c, hc⟩ : ∃ c, c = xs.countP fun e => C.lt e.1 k := ⟨_, rfl⟩
  rw [← hc]
  have hle : c ≤ xs.length := hc ▸ List.countP_le_length
  have hlt : ∀ i (hi : i < xs.length), i < c → C.lt xs[i].1 k = true := fun i hi hic => (hp.getElem_iff hi).2 (hc ▸ hic)
  have hge : ∀ i (hi : i < xs.length), c ≤ i → C.lt xs[i].1 k = false := fun i hi hic => by
    have := mt (hp.getElem_iff hi).1 (by omega)
    simpa using this
  split
  · rename_i hcl
    refine ⟨_, rfl, .inr ⟨rfl, fun e he hsame => ?_⟩⟩
    obtain ⟨i, hi, rfl⟩ := List.mem_iff_getElem.1 ((hxs.mem e).2 he)
    have := hlt i hi (by omega)
    rw [hsame.1] at this; cases this
  · have hcl : c < xs.length := by omega
    rw [List.getElem?_eq_getElem hcl]
    simp only [Option.bind_some]
    split
    · rename_i hkc
      refine ⟨_, rfl, .inr ⟨rfl, fun e he hsame => ?_⟩⟩
      obtain ⟨i, hi, rfl⟩ := List.mem_iff_getElem.1 ((hxs.mem e).2 he)
      by_cases hic : i < c
      · have := hlt i hi hic
        rw [hsame.1] at this; cases this
      · by_cases hic' : i = c
        · subst hic'
          rw [hsame.2] at hkc; cases hkc
        · have h1 := List.pairwise_iff_getElem.1 hxs.increasing c i hcl hi (by omega)
          have := h.trans hkc h1
          rw [hsame.2] at this; cases this
    · rename_i hkc
      refine ⟨c, rfl, .inl ⟨_, List.getElem?_eq_getElem hcl, (hxs.mem _).1 (List.getElem_mem hcl), hge c hcl (Nat.le_refl _), by simpa using hkc⟩⟩

/-- `lookup` gives the mapped value of the key. -/
theorem C33_lookup {C : Cfg κ μ} (h : StrictWeak C.lt) {S : κ × μ → Prop} {xs : List (κ × μ)} (hxs : C.Lists S xs) (k : κ) :
    ∃ r, C.lookup xs k = some r ∧ ∀ v, r = some v ↔ ∃ k', S (k', v) ∧ C.Same k' k := by
  obtain ⟨i, e, hi⟩ := C33_find h hxs k
  rw [Cfg.lookup, e]
  simp only [Option.bind_eq_bind, Option.bind_some]
  rcases hi with ⟨x, hx, hS, hsame⟩ | ⟨rfl, hno⟩
  · have hil : i < xs.length := (List.getElem?_eq_some_iff.1 hx).1
    rw [if_pos (by omega), hx]
    refine ⟨_, rfl, fun v => ⟨fun hv => ?_, ?_⟩⟩
    · cases hv
      exact ⟨x.1, hS, hsame⟩
    · rintro ⟨k', hS', hsame'⟩
      obtain ⟨j, hj, hj'⟩ := List.mem_iff_getElem.1 ((hxs.mem _).2 hS')
      have hx' := (List.getElem?_eq_some_iff.1 hx).2
      have hs : C.Same xs[i].1 xs[j].1 := by
        rw [hx', hj']; exact hsame.trans h hsame'.symm
      have hij : i = j := by
        rcases Nat.lt_trichotomy i j with hlt | heq | hlt
        · have := List.pairwise_iff_getElem.1 hxs.increasing i j hil hj hlt
          rw [hs.1] at this; cases this
        · exact heq
        · have := List.pairwise_iff_getElem.1 hxs.increasing j i hj hil hlt
          rw [hs.2] at this; cases this
      subst hij
      rw [hx'] at hj'
      rw [hj']
  · rw [if_neg (by omega)]
    refine ⟨_, rfl, fun v => ⟨fun hv => (by cases hv), ?_⟩⟩
    rintro ⟨k', hS', hsame'⟩
    exact absurd hsame' (hno _ hS')

/-! ## Inserting one element -/

/-- An increasing list has one element for a key. -/
theorem incr_unique {C : Cfg κ μ} {xs : List (κ × μ)} (hxs : xs.Pairwise fun x y => C.lt x.1 y.1 = true) {x y : κ × μ} (hx : x ∈ xs) (hy : y ∈ xs)
    (hs : C.Same x.1 y.1) : x = y := by
  obtain ⟨i, hi, rfl⟩ := List.mem_iff_getElem.1 hx
  obtain ⟨j, hj, rfl⟩ := List.mem_iff_getElem.1 hy
  rcases Nat.lt_trichotomy i j with hlt | rfl | hlt
  · have := List.pairwise_iff_getElem.1 hxs i j hi hj hlt
    rw [hs.1] at this; cases this
  · rfl
  · have := List.pairwise_iff_getElem.1 hxs j i hj hi hlt
    rw [hs.2] at this; cases this

theorem mem_insert {xs : List α} {c : Nat} {e x : α} : x ∈ xs.take c ++ e :: xs.drop c ↔ x ∈ xs ∨ x = e := by
  rw [List.mem_append, List.mem_cons]
  conv => rhs; rw [← List.take_append_drop c xs, List.mem_append]
  tauto

theorem insert_increasing {C : Cfg κ μ} (h : StrictWeak C.lt) {xs : List (κ × μ)} {c : Nat} {k : κ} {v : μ} (hxs : xs.Pairwise fun x y => C.lt x.1 y.1 = true)
    (h1 : ∀ x ∈ xs.take c, C.lt x.1 k = true) (h2 : ∀ x ∈ xs.drop c, C.lt k x.1 = true) :
    (xs.take c ++ (k, v) :: xs.drop c).Pairwise fun x y => C.lt x.1 y.1 = true := by
  have h3 := hxs
  rw [← List.take_append_drop c xs, List.pairwise_append] at h3
  refine List.pairwise_append.2 ⟨h3.1, List.pairwise_cons.2 ⟨h2, h3.2.1⟩, fun x hx y hy => ?_⟩
  rcases List.mem_cons.1 hy with rfl | hy
  · exact h1 x hx
  · exact h3.2.2 x hx y hy

/-- Where `upper_bound` divides sorted contents. -/
theorem upper_take {C : Cfg κ μ} (h : StrictWeak C.lt) {xs : List (κ × μ)} (hs : Sorted C.elt xs) (k : κ) :
    (∀ x ∈ xs.take (xs.countP fun e => !C.lt k e.1), C.lt k x.1 = false) ∧ (∀ x ∈ xs.drop (xs.countP fun e => !C.lt k e.1), C.lt k x.1 = true) := by
  have hp := partitioned_le h hs k
  obtain ⟨c, hc⟩ : ∃ c, c = xs.countP fun e => !C.lt k e.1 := ⟨_, rfl⟩
  rw [← hc]
  constructor
  · intro x hx
    obtain ⟨i, hi, rfl⟩ := List.mem_iff_getElem.1 hx
    rw [List.length_take] at hi
    rw [List.getElem_take]
    have := (hp.getElem_iff (i := i) (by omega)).2 (by omega)
    simpa using this
  · intro x hx
    obtain ⟨i, hi, rfl⟩ := List.mem_iff_getElem.1 hx
    rw [List.length_drop] at hi
    rw [List.getElem_drop]
    have := mt (hp.getElem_iff (i := c + i) (by omega)).1 (by omega)
    simpa using this

/-- `insert` of one element: it is inserted in order if its key is new, and otherwise nothing changes; the position of the element with the
key is returned. -/
theorem C33_insert {C : Cfg κ μ} (h : StrictWeak C.lt) {S : κ × μ → Prop} {xs : List (κ × μ)} (hxs : C.Lists S xs) (k : κ) (v : μ)
    (hroom : xs.length < C.mx ∨ ∃ e, S e ∧ C.Same e.1 k) :
    ∃ ys i b S', C.lazyInsert xs k v = some (ys, i, b) ∧ C.Lists S' ys ∧ C.Spec S S' (.insert k v) ∧ (∃ e, ys[i]? = some e ∧ C.Same e.1 k) ∧
      (b = true → ys[i]? = some (k, v)) ∧ (b = true ↔ ∀ e, S e → ¬ C.Same e.1 k) := by
  have hs := sorted_of_increasing h hxs.increasing
  obtain ⟨ht, hd⟩ := upper_take h hs k
  have e := keyedUpperBound_eq h hs k
  have hle : (xs.countP fun e => !C.lt k e.1) ≤ xs.length := List.countP_le_length
  generalize (xs.countP fun e => !C.lt k e.1) = c at *
  rw [Cfg.lazyInsert, e]
  simp only [Option.bind_eq_bind, Option.bind_some]
  -- the element is new
  have fresh : (∀ x ∈ xs.take c, C.lt x.1 k = true) → ∃ ys S', C.insertAt xs c (k, v) = some ys ∧ C.Lists S' ys ∧ C.Spec S S' (.insert k v) ∧
      (∀ e, S e → ¬ C.Same e.1 k) ∧ ys[c]? = some (k, v) := by
    intro h1
    have hno : ∀ e, S e → ¬ C.Same e.1 k := by
      intro e he hsame
      have hm := (hxs.mem e).2 he
      rw [← List.take_append_drop c xs, List.mem_append] at hm
      rcases hm with hm | hm
      · have := h1 e hm; rw [hsame.1] at this; cases this
      · have := hd e hm; rw [hsame.2] at this; cases this
    have hr : xs.length < C.mx := by
      rcases hroom with hr | ⟨e, he, hsame⟩
      · exact hr
      · exact absurd hsame (hno e he)
    refine ⟨_, (· ∈ xs.take c ++ (k, v) :: xs.drop c), by rw [Cfg.insertAt, if_pos (by omega)], ⟨insert_increasing h hxs.increasing h1 hd, fun _ => Iff.rfl⟩, ?_, hno, ?_⟩
    · intro e
      dsimp only
      rw [mem_insert, hxs.mem]
      exact ⟨fun h => h.imp id fun h => ⟨h, hno⟩, fun h => h.imp id fun h => h.1⟩
    · rw [List.getElem?_append_right (by rw [List.length_take]; omega), List.length_take, show c - min c xs.length = 0 by omega]; rfl
  split
  · rename_i hc
    obtain ⟨ys, S', e1, h1, h2, h3, h4⟩ := fresh (by subst hc; simp)
    exact ⟨ys, c, true, S', by rw [e1]; rfl, h1, h2, ⟨_, h4, Cfg.Same.refl h k⟩, fun _ => h4, fun _ => h3, fun _ => rfl⟩
  · rename_i hc
    rw [List.getElem?_eq_getElem (by omega)]
    simp only [Option.bind_some]
    have hlast : xs[c - 1]'(by omega) ∈ xs.take c := by
      rw [List.mem_take_iff_getElem]
      exact ⟨c - 1, by omega, rfl⟩
    split
    · rename_i hl
      obtain ⟨ys, S', e1, h1, h2, h3, h4⟩ := fresh (by
        intro x hx
        obtain ⟨i, hi, rfl⟩ := List.mem_take_iff_getElem.1 hx
        by_cases hic : i = c - 1
        · subst hic; exact hl
        · exact h.trans (List.pairwise_iff_getElem.1 hxs.increasing i (c - 1) (by omega) (by omega) (by omega)) hl)
      exact ⟨ys, c, true, S', by rw [e1]; rfl, h1, h2, ⟨_, h4, Cfg.Same.refl h k⟩, fun _ => h4, fun _ => h3, fun _ => rfl⟩
    · rename_i hl
      have hsame : C.Same (xs[c - 1]'(by omega)).1 k := ⟨by simpa using hl, ht _ hlast⟩
      have hS : S (xs[c - 1]'(by omega)) := (hxs.mem _).1 (List.getElem_mem _)
      refine ⟨xs, c - 1, false, S, rfl, hxs, fun e => ⟨.inl, ?_⟩, ⟨_, List.getElem?_eq_getElem (by omega), hsame⟩, fun hb => (by cases hb),
        fun hb => (by cases hb), fun hno => absurd hsame (hno _ hS)⟩
      rintro (he | ⟨-, hno⟩)
      · exact he
      · exact absurd hsame (hno _ hS)

/-! ## Ranges -/

/-- One element for every key of both lists, those of the first one being kept. -/
theorem uniqued_append {C : Cfg κ μ} (h : StrictWeak C.lt) {xs ys zs : List (κ × μ)} (hxs : xs.Pairwise fun x y => C.lt x.1 y.1 = true)
    (hu : IsUniqued C.elt (xs ++ ys) zs) :
    (∀ e ∈ xs, e ∈ zs) ∧ (∀ z ∈ zs, z ∈ xs ∨ z ∈ ys ∧ ∀ x ∈ xs, ¬ C.Same x.1 z.1) ∧ (∀ e ∈ ys, ∃ z ∈ zs, C.Same z.1 e.1) := by
  have hfirst : ∀ z ∈ zs, ∀ x ∈ xs, C.Same x.1 z.1 → z = x := by
    intro z hz x hx hs
    have hf := hu.first z hz
    rw [List.find?_append] at hf
    cases hfx : xs.find? (equiv C.elt z) with
    | none =>
      have := List.find?_eq_none.1 hfx x hx
      exact absurd (Cfg.same_iff.1 hs.symm) this
    | some y =>
      rw [hfx] at hf
      simp only [Option.some_or, Option.some.injEq] at hf
      subst hf
      exact incr_unique hxs (List.mem_of_find?_eq_some hfx) hx hs.symm
  refine ⟨fun e he => ?_, fun z hz => ?_, fun e he => ?_⟩
  · obtain ⟨z, hz, hze⟩ := hu.covers e (List.mem_append_left _ he)
    have := hfirst z hz e he (Cfg.same_iff.2 hze).symm
    exact this ▸ hz
  · by_cases hex : ∃ x ∈ xs, C.Same x.1 z.1
    · obtain ⟨x, hx, hs⟩ := hex
      exact .inl (hfirst z hz x hx hs ▸ hx)
    · rcases List.mem_append.1 (hu.mem hz) with hm | hm
      · exact .inl hm
      · exact .inr ⟨hm, fun x hx hs => hex ⟨x, hx, hs⟩⟩
  · obtain ⟨z, hz, hze⟩ := hu.covers e (List.mem_append_right _ he)
    exact ⟨z, hz, Cfg.same_iff.2 hze⟩

/-- `insert` of a range: the elements of the map stay, and for every other key of the range one element of it is added. Missing: the ranges of more than 128
elements with keys of more than one byte that `ska_sort` does not sort (`C33_many_violated`), and mapped values that lose their value when
they are move assigned to themselves (`C33_self_move_violated`). There has to be room for the elements that are not added. -/
theorem C33_insert_range_partial {C : Cfg κ μ} (h : C.Ok) (hk : C.mv ≠ .clearSelf) {S : κ × μ → Prop} {xs : List (κ × μ)} (hxs : C.Lists S xs)
    {init : List (κ × μ)} (hroom : xs.length + init.length ≤ C.mx) (hn : C.Sortable init) :
    ∃ ys S', C.insertRange false xs init = some ys ∧ C.Lists S' ys ∧ C.Spec S S' (.insertRange init) := by
  obtain ⟨init', zs, e, hp, hu⟩ := h.merge hk hxs.increasing hn
  obtain ⟨h1, h2, h3⟩ := uniqued_append h.order hxs.increasing hu
  refine ⟨zs, (· ∈ zs), ?_, ⟨hu.increasing, fun _ => Iff.rfl⟩, ⟨fun e he => h1 e ((hxs.mem e).2 he), fun e he => ?_, fun e he => h3 e (hp.mem_iff.2 he),
    fun x y hx hy => incr_unique hu.increasing hx hy⟩⟩
  · rw [Cfg.insertRange, Cfg.append, if_pos hroom]
    exact e
  · rcases h2 e he with hm | ⟨hm, hno⟩
    · exact .inl ((hxs.mem e).1 hm)
    · exact .inr ⟨hp.mem_iff.1 hm, fun x hx => hno x ((hxs.mem x).2 hx)⟩

/-- A map made from a range has one element of it for each key. -/
theorem C33_construct_partial {C : Cfg κ μ} (h : C.Ok) {source : List (κ × μ)} (hroom : source.length ≤ C.mx) (hn : C.Sortable source) :
    ∃ ys S, C.construct false source = some ys ∧ C.Lists S ys ∧ (∀ e, S e → e ∈ source) ∧ ∀ e ∈ source, ∃ x, S x ∧ C.Same x.1 e.1 := by
  obtain ⟨ys, zs, e, hp, hu⟩ := h.uniqueSkaSort hn
  refine ⟨zs, (· ∈ zs), ?_, ⟨hu.increasing, fun _ => Iff.rfl⟩, fun e he => hp.mem_iff.1 (hu.mem he), fun e he => ?_⟩
  · rw [Cfg.construct, Cfg.append, if_pos (by simpa using hroom)]
    simp only [Option.bind_eq_bind, Option.bind_some, List.nil_append, Bool.false_eq_true, if_false]
    exact e
  · obtain ⟨z, hz, hze⟩ := hu.covers e (hp.mem_iff.2 he)
    exact ⟨z, hz, Cfg.same_iff.2 hze⟩

/-- The constructor with `assume_unique`, if the keys are unique. -/
theorem C33_construct_unique_partial {C : Cfg κ μ} (h : C.Ok) {source : List (κ × μ)} (hroom : source.length ≤ C.mx) (hn : C.Sortable source)
    (hu : source.Pairwise fun x y => ¬ C.Same x.1 y.1) :
    ∃ ys, C.constructUnique source = some ys ∧ C.Lists (· ∈ source) ys := by
  obtain ⟨ys, e, so⟩ := h.sortFrom (xs := []) hn
  rw [List.nil_append, List.nil_append, List.length_nil] at e
  refine ⟨ys, ?_, ?_, fun e => so.perm.mem_iff⟩
  · rw [Cfg.constructUnique, Cfg.append, if_pos (by simpa using hroom)]
    exact e
  · have hu' : ys.Pairwise fun x y => ¬ C.Same x.1 y.1 := (so.perm.pairwise_iff fun hab hba => hab hba.symm).2 hu
    refine (hu'.and so.sorted).imp fun {a b} hab => ?_
    cases hlt : C.lt a.1 b.1 with
    | true => rfl
    | false => exact absurd ⟨hlt, hab.2⟩ hab.1

/-- The constructor with `assume_sorted_unique`, if the source is sorted and the keys are unique. -/
theorem C33_construct_sorted_unique {C : Cfg κ μ} (h : StrictWeak C.lt) {source : List (κ × μ)} (hroom : source.length ≤ C.mx)
    (hu : source.Pairwise fun x y => C.lt x.1 y.1 = true) :
    C.constructSortedUnique source = some source ∧ C.Lists (· ∈ source) source := by
  refine ⟨?_, hu, fun _ => Iff.rfl⟩
  obtain ⟨b, e, hb⟩ := C38_is_sorted (lt := C.elt) (h.comap _) (memOf_seg source)
  have := hb.2 (sorted_of_increasing h hu)
  subst this
  rw [Cfg.constructSortedUnique, Cfg.append, if_pos (by simpa using hroom)]
  simp only [Option.bind_eq_bind, Option.bind_some, List.nil_append]
  rw [e]; rfl

/-- The constructor with `assume_sorted_unique` accepts exactly the sources that fit and are sorted: anything else fails the assertion. Whether the keys are
unique is not checked, that is left to the caller. -/
theorem C33_construct_sorted_unique_accepts {C : Cfg κ μ} (h : StrictWeak C.lt) (source ys : List (κ × μ)) :
    C.constructSortedUnique source = some ys ↔ ys = source ∧ source.length ≤ C.mx ∧ Sorted C.elt source := by
  obtain ⟨b, e, hb⟩ := C38_is_sorted (lt := C.elt) (h.comap _) (memOf_seg source)
  rw [Cfg.constructSortedUnique, Cfg.append]
  by_cases hroom : source.length ≤ C.mx
  · rw [if_pos (by simpa using hroom)]
    simp only [Option.bind_eq_bind, Option.bind_some, List.nil_append]
    rw [e]
    simp only [Option.bind_some, hroom, true_and, ← hb]
    cases b <;> simp [eq_comm]
  · rw [if_neg (by simpa using hroom)]
    simp [hroom]

/-! ## Erasing -/

theorem C33_erase {C : Cfg κ μ} (h : StrictWeak C.lt) {S : κ × μ → Prop} {xs : List (κ × μ)} (hxs : C.Lists S xs) {i : Nat} (hi : i < xs.length) :
    ∃ ys S', eraseAt xs i = some ys ∧ C.Lists S' ys ∧ C.Spec S S' (.erase i) := by
  refine ⟨xs.eraseIdx i, (· ∈ xs.eraseIdx i), if_pos hi, ⟨hxs.increasing.sublist (List.eraseIdx_sublist _ _), fun _ => Iff.rfl⟩, xs, hxs, xs[i],
    List.getElem?_eq_getElem hi, fun e => ?_⟩
  dsimp only
  rw [← hxs.mem, List.mem_eraseIdx_iff_getElem]
  constructor
  · rintro ⟨j, hj, hji, rfl⟩
    refine ⟨List.getElem_mem _, fun heq => ?_⟩
    rcases Nat.lt_or_gt_of_ne hji with hlt | hlt
    · have := List.pairwise_iff_getElem.1 hxs.increasing j i hj hi hlt
      rw [heq, h.irrefl] at this; cases this
    · have := List.pairwise_iff_getElem.1 hxs.increasing i j hi hj hlt
      rw [heq, h.irrefl] at this; cases this
  · rintro ⟨he, hne⟩
    obtain ⟨j, hj, rfl⟩ := List.mem_iff_getElem.1 he
    exact ⟨j, hj, fun hji => hne (by subst hji; rfl), rfl⟩

theorem C33_erase_range {C : Cfg κ μ} (h : StrictWeak C.lt) {S : κ × μ → Prop} {xs : List (κ × μ)} (hxs : C.Lists S xs) {i j : Nat} (hij : i ≤ j) (hj : j ≤ xs.length) :
    ∃ ys S', eraseBetween xs i j = some ys ∧ C.Lists S' ys ∧ C.Spec S S' (.eraseRange i j) := by
  have hsplit : xs = xs.take i ++ ((xs.take j).drop i ++ xs.drop j) := by
    have h1 : xs.take i = (xs.take j).take i := by rw [List.take_take, Nat.min_eq_left hij]
    rw [← List.append_assoc, h1, List.take_append_drop, List.take_append_drop]
  have hinc := hxs.increasing
  rw [hsplit] at hinc
  obtain ⟨p1, p2, p3⟩ := List.pairwise_append.1 hinc
  obtain ⟨p4, p5, p6⟩ := List.pairwise_append.1 p2
  refine ⟨xs.take i ++ xs.drop j, (· ∈ xs.take i ++ xs.drop j), if_pos ⟨hij, hj⟩,
    ⟨List.pairwise_append.2 ⟨p1, p5, fun x hx y hy => p3 x hx y (List.mem_append_right _ hy)⟩, fun _ => Iff.rfl⟩, xs, hxs, fun e => ?_⟩
  have hirr : ∀ x, C.lt x x ≠ true := fun x hx => by rw [h.irrefl] at hx; cases hx
  dsimp only
  rw [← hxs.mem, List.mem_append]
  constructor
  · rintro (he | he)
    · refine ⟨List.mem_of_mem_take he, fun hm => hirr e.1 (p3 e he e (List.mem_append_left _ hm))⟩
    · refine ⟨List.mem_of_mem_drop he, fun hm => hirr e.1 (p6 e hm e he)⟩
  · rintro ⟨he, hne⟩
    rw [hsplit, List.mem_append, List.mem_append] at he
    rcases he with he | he | he
    · exact .inl he
    · exact absurd he hne
    · exact .inr he

theorem C33_erase_if {C : Cfg κ μ} {S : κ × μ → Prop} {xs : List (κ × μ)} (hxs : C.Lists S xs) (p : κ × μ → Bool) :
    ∃ ys S', eraseIf xs p = some ys ∧ C.Lists S' ys ∧ C.Spec S S' (.eraseIf p) := by
  refine ⟨_, (· ∈ xs.filter fun x => !p x), rfl, ⟨hxs.increasing.sublist List.filter_sublist, fun _ => Iff.rfl⟩, fun e => ?_⟩
  dsimp only
  rw [List.mem_filter, hxs.mem]
  simp

end Verif.Maps
