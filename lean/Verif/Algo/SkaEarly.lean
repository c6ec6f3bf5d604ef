import Verif.Algo.SkaProps

/-!
# Which ranges `ska_sort` sorts

`american_flag_sort` (`inplace_radix_sort.cpp` 217-270) returns from the middle of its loop (line 239) once all
elements are in the right block. The blocks are then not sorted by the rest of the key. Whether that happens depends on the
input only: for keys that are one number, the sizes of the groups of elements that agree in their leading bytes decide.
-/

namespace Verif.Algo

variable {α : Type}

/-- Byte `r` of a number, the least significant one being byte 0. -/
def byteOf (f : α → Nat) (r : Nat) (x : α) : Nat := f x / 256 ^ r % 256

/-- The groups of elements that agree in their leading bytes are all such that no group of 129 to 1023 elements has two
different bytes at a place that is not the last one. -/
def GroupsFit (f : α → Nat) : Nat → List α → Prop
  | 0, _ => True
  | r + 1, xs => xs.length ≤ 128 ∨
    ((1024 ≤ xs.length ∨ r = 0 ∨ ∀ x ∈ xs, ∀ y ∈ xs, byteOf f r x = byteOf f r y) ∧
      ∀ b, b < 256 → GroupsFit f r (xs.filter fun x => decide (byteOf f r x = b)))

theorem GroupsFit.perm {f : α → Nat} : ∀ {r : Nat} {xs ys : List α}, ys.Perm xs → GroupsFit f r xs → GroupsFit f r ys
  | 0, _, _, _, _ => trivial
  | r + 1, xs, ys, hp, h => by
    rcases h with h | ⟨h1, h2⟩
    · exact .inl (by rw [hp.length_eq]; exact h)
    · refine .inr ⟨?_, fun b hb => GroupsFit.perm (hp.filter _) (h2 b hb)⟩
      rcases h1 with h | h | h
      · exact .inl (by rw [hp.length_eq]; exact h)
      · exact .inr (.inl h)
      · exact .inr (.inr fun x hx y hy => h x (hp.mem_iff.1 hx) y (hp.mem_iff.1 hy))

theorem currentByte_byteOf (f : α → Nat) (r : Nat) : currentByte f r = byteOf f r := by funext x; exact currentByte_eq f r x

theorem sortSelector_fits {full : α → α → Bool} {std : Mem α → Nat → Nat → Option (Mem α)} (hstd : StdSorts full ⟨128, 1024, std⟩) {R : α → α → Prop} {f : α → Nat}
    (hless : ∀ x y, R x y → f x < f y → full y x = false) (hsame : ∀ x y, R x y → f x = f y → full x y = false) :
    ∀ r, SortsOk full (GroupsFit f r) (fun x y => R x y ∧ f x / 256 ^ r = f y / 256 ^ r) (sortSelector ⟨128, 1024, std⟩ f none r)
  | 0 => by
    intro m first xs hs hxs
    exact ⟨m, xs, false, rfl, hs, List.Perm.refl _, fun _ => sorted_of_equiv fun x hx y hy => hsame x y (hxs x hx y hy).1 (by simpa using (hxs x hx y hy).2), fun _ => rfl, fun _ _ => rfl⟩
  | r + 1 => by
    intro m first xs hs hxs
    have hrec : SortsOk full (GroupsFit f r) (fun x y => (R x y ∧ f x / 256 ^ (r + 1) = f y / 256 ^ (r + 1)) ∧ currentByte f r x = currentByte f r y) (sortSelector ⟨128, 1024, std⟩ f none r) := by
      refine (sortSelector_fits hstd hless hsame r).mono fun x y h => ⟨h.1.1, ?_⟩
      rw [div_byte f r x, div_byte f r y, h.1.2, h.2]
    have hcross : ∀ x y, (R x y ∧ f x / 256 ^ (r + 1) = f y / 256 ^ (r + 1)) → currentByte f r x < currentByte f r y → full y x = false := by
      intro x y h hlt
      refine hless x y h.1 ?_
      by_contra hge
      have h1 := Nat.div_le_div_right (c := 256 ^ r) (show f y ≤ f x by omega)
      have h2 := div_byte f r x
      have h3 := div_byte f r y
      have h4 := h.2
      omega
    rw [sortSelector]
    split
    · obtain ⟨m', ys, e, a⟩ := hstd.ok (GroupsFit f (r + 1)) (fun x y => R x y ∧ f x / 256 ^ (r + 1) = f y / 256 ^ (r + 1)) m first xs hs hxs
      exact ⟨m', ys, e, a⟩
    · rename_i hthr
      have hgroups : GroupsFit f (r + 1) xs → (1024 ≤ xs.length ∨ r = 0 ∨ ∀ x ∈ xs, ∀ y ∈ xs, currentByte f r x = currentByte f r y) ∧
          ∀ d, d < 256 → ∀ l, l.Perm (xs.filter fun x => decide (currentByte f r x = d)) → GroupsFit f r l := by
        intro h
        rw [currentByte_byteOf]
        rcases h with h | ⟨h1, h2⟩
        · exact absurd h hthr
        · exact ⟨h1, fun d hd l hl => (h2 d hd).perm hl⟩
      split
      · rename_i hlt
        obtain ⟨m', ys, e, e1, s1, p1, so1, -, t1, -, f1⟩ := americanFlagSort_spec (done := (r == 0 && (none : Option (Sorter α)).isNone)) (currentByte_lt f r) hrec hcross (fun hd x y hR hb => by
          rw [Bool.and_eq_true, beq_iff_eq] at hd
          obtain ⟨rfl, -⟩ := hd
          refine hsame x y hR.1 ?_
          have h2 := div_byte f 0 x
          have h3 := div_byte f 0 y
          have h4 := hR.2
          simp only [Nat.pow_zero, Nat.div_one] at h2 h3
          omega) hs hxs
        refine ⟨m', ys, e, e1, s1, p1, so1, fun hg => ?_, f1⟩
        obtain ⟨h1, h2⟩ := hgroups hg
        refine t1 ?_ h2
        rcases h1 with h | h | h
        · exact absurd hlt (by simpa using h)
        · exact .inl (by simp [h])
        · exact .inr (.inl h)
      · obtain ⟨m', ys, e, e1, s1, p1, so1, -, t1, f1⟩ := skaByteSort_spec (currentByte_lt f r) hrec hcross hs hxs
        exact ⟨m', ys, e, e1, s1, p1, so1, fun hg => t1 (hgroups hg).2, f1⟩

/-- `ska_sort` by one number of any number of bytes: a range of any length is sorted if no group of 129 to 1023 elements that agree in their leading
bytes has two different next bytes, unless that is the last byte. The full claim is that every range is sorted;
`C42_american_flag_always_violated` shows what happens to the other ranges. -/
theorem C42_ska_sort_groups_partial {b : Nat} {f : α → Nat} (hw : (Desc.num b f).WF) {std : Mem α → Nat → Nat → Option (Mem α)} (hstd : SortsBy (Desc.num b f).less std) {m : Mem α}
    {first : Nat} {xs : List α} (hs : m.Seg first xs) (hg : GroupsFit f b xs) :
    ∃ m' ys, skaSort std (.num b f) m first xs.length = some (m', false) ∧ m'.Seg first ys ∧ IsSort (Desc.num b f).less xs ys ∧ m.SameOff m' (InRange first xs.length) := by
  by_cases hlen : xs.length ≤ 1
  · refine ⟨m, xs, ?_, hs, ⟨sorted_short hlen, List.Perm.refl _⟩, fun _ _ => rfl⟩
    simp only [skaSort, inplaceRadixSort, Desc.chain, sortStarter, runNext]
    rw [if_pos hlen]
  · obtain ⟨m', ys, e, e1, s1, p1, so1, t1, f1⟩ := sortSelector_fits (full := (Desc.num b f).less) (std := std) hstd (R := fun _ _ => True) (f := f)
      (fun x y _ h => by simp only [Desc.less, decide_eq_false_iff_not]; omega) (fun x y _ h => by simp only [Desc.less, decide_eq_false_iff_not]; omega) b m first xs hs
      fun x _ y _ => ⟨trivial, by rw [Nat.div_eq_of_lt (hw.2 x), Nat.div_eq_of_lt (hw.2 y)]⟩
    obtain rfl := t1 hg
    refine ⟨m', ys, ?_, s1, ⟨so1 rfl, p1⟩, f1⟩
    simp only [skaSort, inplaceRadixSort, Desc.chain, sortStarter, runNext]
    rw [if_neg hlen]
    exact e1

/-- A range of 129 to 1023 elements with two different leading bytes, the largest of which occurs more than once. -/
structure LeavesEarly (top : α → Nat) (xs : List α) : Prop where
  long : 128 < xs.length
  short : xs.length < 1024
  differ : ∃ x ∈ xs, ∃ y ∈ xs, top x ≠ top y
  twice : ∀ x ∈ xs, (∀ y ∈ xs, top y ≤ top x) → 2 ≤ (xs.filter fun y => decide (top y = top x)).length

/-- For every such range the elements are only brought into the order of their leading bytes: the rest of the keys and the standard library's sort have no influence
on the result. -/
theorem C42_american_flag_ignores_rest {b : Nat} {top : α → Nat} {m : Mem α} {first : Nat} {xs : List α} (hs : m.Seg first xs) (h : LeavesEarly top xs) (ht : ∀ x, top x < 256) :
    ∃ m' ys, m'.Seg first ys ∧ ys.Perm xs ∧ (ys.map top).Pairwise (· ≤ ·) ∧ m.SameOff m' (InRange first xs.length) ∧
      ∀ (std : Mem α → Nat → Nat → Option (Mem α)) (f : α → Nat), (∀ x, byteOf f (b + 1) x = top x) → skaSort std (.num (b + 2) f) m first xs.length = some (m', true) := by
  obtain ⟨ps, hps, -⟩ := partitionCounts_spec (dg := top) hs
  have hrec : SortsOk (fun x y => decide (top x < top y)) (fun _ => True) (fun x y => True ∧ top x = top y) (runNext none) := by
    intro m first xs hs hxs
    refine ⟨m, xs, false, rfl, hs, List.Perm.refl _, fun _ => sorted_of_equiv fun x hx y hy => ?_, fun _ => rfl, fun _ _ => rfl⟩
    have := (hxs x hx y hy).2
    simp only [decide_eq_false_iff_not]; omega
  obtain ⟨m', ys, e, e1, s1, p1, so1, -, t1, er1, f1⟩ := americanFlagSort_spec (done := true) (R := fun _ _ => True) ht hrec
    (fun x y _ hlt => by simp only [decide_eq_false_iff_not]; omega) (fun _ x y _ he => by simp only [decide_eq_false_iff_not]; omega) hs fun _ _ _ _ => trivial
  obtain ⟨m1, hm1⟩ := er1 h.differ h.twice
  have e2 := americanFlagSort_early (done := true) (rec := runNext none) hm1
  rw [e1] at e2
  injection e2 with e2
  injection e2 with e2 e3
  subst e2
  refine ⟨m', ys, s1, p1, ?_, f1, fun std f hf => ?_⟩
  · rw [List.pairwise_map]
    exact (so1 e3).imp fun hab => by simp only [decide_eq_false_iff_not] at hab; omega
  · have hbyte : currentByte f (b + 1) = top := by rw [currentByte_byteOf]; funext x; exact hf x
    have h1 := h.long
    have h2 := h.short
    simp only [skaSort, inplaceRadixSort, Desc.chain, sortStarter, runNext]
    rw [if_neg (by omega)]
    simp only [inplaceSort]
    rw [sortSelector, if_neg (by simpa using h1), if_pos (by simpa using h2), hbyte]
    rw [americanFlagSort_early (done := (b + 1 == 0 && (none : Option (Sorter α)).isNone)) hm1]
    rfl

/-- No such range of different elements is sorted whatever its keys: for given leading bytes there are keys for which the result is in
the wrong order, whatever the standard library's sort does. -/
theorem C42_american_flag_always_violated {b : Nat} {top : α → Nat} {m : Mem α} {first : Nat} {xs : List α} (hs : m.Seg first xs) (h : LeavesEarly top xs) (ht : ∀ x, top x < 256)
    (hnd : xs.Nodup) :
    ∃ f : α → Nat, (Desc.num (b + 2) f).less = (fun x y => decide (f x < f y)) ∧ (∀ x, f x < 256 ^ (b + 2)) ∧ (∀ x, byteOf f (b + 1) x = top x) ∧
      ∃ m' ys, m'.Seg first ys ∧ ¬IsSort (Desc.num (b + 2) f).less xs ys ∧ ∀ std, skaSort std (.num (b + 2) f) m first xs.length = some (m', true) := by
  obtain ⟨m', ys, s1, p1, -, -, hall⟩ := C42_american_flag_ignores_rest (b := b) hs h ht
  -- two different elements with the largest leading byte
  obtain ⟨x0, hx0, hmax⟩ : ∃ x ∈ xs, ∀ y ∈ xs, top y ≤ top x := by
    obtain ⟨z, hz, -⟩ := h.differ
    clear h hs hnd p1 hall
    induction xs generalizing z with
    | nil => simp at hz
    | cons a l ih =>
      cases l with
      | nil => exact ⟨a, by simp, fun y hy => by simp at hy; rw [hy]⟩
      | cons c l =>
        obtain ⟨x, hx, hm⟩ := ih c (by simp)
        by_cases hax : top a ≤ top x
        · refine ⟨x, by simp only [List.mem_cons] at hx ⊢; exact .inr hx, fun y hy => ?_⟩
          rcases List.mem_cons.1 hy with rfl | hy
          · exact hax
          · exact hm y hy
        · refine ⟨a, by simp, fun y hy => ?_⟩
          rcases List.mem_cons.1 hy with rfl | hy
          · exact Nat.le_refl _
          · have := hm y hy; omega
  have htwo := h.twice x0 hx0 hmax
  have hpf : (ys.filter fun y => decide (top y = top x0)).Perm (xs.filter fun y => decide (top y = top x0)) := p1.filter _
  rw [← hpf.length_eq] at htwo
  have hsub : List.Sublist (ys.filter fun y => decide (top y = top x0)) ys := List.filter_sublist
  have hmem : ∀ y ∈ ys.filter (fun y => decide (top y = top x0)), top y = top x0 := fun y hy => by simpa using (List.mem_filter.1 hy).2
  have hndf : (ys.filter fun y => decide (top y = top x0)).Nodup := (p1.nodup_iff.2 hnd).filter _
  generalize ys.filter (fun y => decide (top y = top x0)) = g at htwo hsub hmem hndf
  match g, htwo, hsub, hmem, hndf with
  | u :: v :: g, _, hsub, hmem, hndf =>
    have huv : u ≠ v := by
      rw [List.nodup_cons] at hndf
      intro he; exact hndf.1 (by rw [he]; simp)
    classical
    have hP : 1 < 256 ^ (b + 1) := Nat.one_lt_pow (by omega) (by omega)
    have hval : ∀ x : α, (if x = u then 1 else 0) < 256 ^ (b + 1) := fun x => by split <;> omega
    refine ⟨fun x => top x * 256 ^ (b + 1) + (if x = u then 1 else 0), rfl, fun x => ?_, fun x => ?_, m', ys, s1, ?_, fun std => hall std _ fun x => ?_⟩
    · have h1 := hval x
      have h2 := Nat.mul_le_mul_right (256 ^ (b + 1)) (show top x + 1 ≤ 256 by have := ht x; omega)
      have h3 : 256 ^ (b + 2) = 256 * 256 ^ (b + 1) := by rw [Nat.pow_succ 256 (b + 1), Nat.mul_comm]
      rw [Nat.add_mul, Nat.one_mul] at h2
      dsimp only
      rw [h3]
      omega
    · rw [byteOf, Nat.add_comm, Nat.add_mul_div_right _ _ (by omega), Nat.div_eq_of_lt (hval x), Nat.zero_add, Nat.mod_eq_of_lt (ht x)]
    · intro hso
      have hpair := (hso.sorted.sublist hsub)
      have huv' := (List.pairwise_cons.1 hpair).1 v (by simp)
      simp only [Desc.less, decide_eq_false_iff_not] at huv'
      simp only [if_neg (fun h => huv h.symm : ¬v = u), if_true] at huv'
      rw [ hmem u (by simp), hmem v (by simp)] at huv'
      omega
    · rw [byteOf, Nat.add_comm, Nat.add_mul_div_right _ _ (by omega), Nat.div_eq_of_lt (hval x), Nat.zero_add, Nat.mod_eq_of_lt (ht x)]

/-! ## Examples -/

/-- 2000 numbers of two bytes in groups of 100: all groups fit. -/
example : GroupsFit (fun x : Nat => x % 20 * 256 + x / 20) 2 (List.range 2000) := by
  have h : ∀ b, ((List.range 2000).filter fun x => decide (byteOf (fun x : Nat => x % 20 * 256 + x / 20) 1 x = b)).length ≤ 128 := by
    intro b
    have hb : ∀ x, byteOf (fun x : Nat => x % 20 * 256 + x / 20) 1 x = b → x < 2000 → x % 20 = b := by
      intro x h1 h2
      rw [byteOf, Nat.pow_one] at h1
      have h3 : x / 20 < 256 := by omega
      rw [Nat.add_comm, Nat.add_mul_div_right _ _ (by omega), Nat.div_eq_of_lt h3, Nat.zero_add, Nat.mod_eq_of_lt (by omega)] at h1
      exact h1
    have hnd : ((List.range 2000).filter fun x => decide (byteOf (fun x : Nat => x % 20 * 256 + x / 20) 1 x = b)).Nodup := List.nodup_range.filter _
    have hsub : ((List.range 2000).filter fun x => decide (byteOf (fun x : Nat => x % 20 * 256 + x / 20) 1 x = b)) ⊆ (List.range 100).map fun i => i * 20 + b := by
      intro x hx
      simp only [List.mem_filter, List.mem_range, decide_eq_true_eq] at hx
      have := hb x hx.2 hx.1
      exact List.mem_map.2 ⟨x / 20, List.mem_range.2 (by omega), by omega⟩
    have := (List.subperm_of_subset hnd hsub).length_le
    rw [List.length_map, List.length_range] at this
    omega
  rw [GroupsFit, List.length_range]
  refine .inr ⟨.inl (by omega), fun b _ => ?_⟩
  rw [GroupsFit]
  exact .inl (h b)

/-- A range of 200 different elements, half of them with leading byte 0 and half with leading byte 1. -/
example : LeavesEarly (fun x : Nat => x % 2) (List.range 200) where
  long := by simp
  short := by simp
  differ := ⟨0, by simp, 1, by simp, by decide⟩
  twice := by
    intro x _ hx
    have h1 := hx 1 (by simp)
    have h2 : x % 2 = 1 := by omega
    simp only [h2]
    decide +kernel

end Verif.Algo
