import Verif.Algo.SkaSort
import Verif.Algo.DoubleBuffered

/-!
# Partitioning by one byte: the two loops of ska_sort put every element into its block
-/

namespace Verif.Algo

variable {α : Type}

/-! ## Counting -/

theorem digitCounts_spec {dg : α → Nat} {m : Mem α} : ∀ {xs : List α} {it : Nat} {c : Nat → Nat}, m.Seg it xs →
    ∃ c', digitCounts dg m xs.length it c = some c' ∧ ∀ d, c' d = c d + (xs.filter fun x => decide (dg x = d)).length
  | [], it, c, _ => ⟨c, rfl, fun _ => rfl⟩
  | x :: xs, it, c, h => by
    rw [Mem.seg_cons] at h
    rw [List.length_cons, digitCounts, h.1]
    simp only [Option.bind_eq_bind, Option.bind_some]
    obtain ⟨c', e, hc⟩ := digitCounts_spec (c := upd c (dg x) (c (dg x) + 1)) h.2
    refine ⟨c', e, fun d => ?_⟩
    rw [hc d, List.filter_cons]
    by_cases hd : d = dg x
    · subst hd; rw [upd_same, if_pos (by simp)]; simp; omega
    · rw [upd_other _ _ hd, if_neg (by simpa using Ne.symm hd)]

theorem partsLoop_spec {dg : α → Nat} {xs : List α} {c : Nat → Nat} (hc : ∀ d, c d = (xs.filter fun x => decide (dg x = d)).length) :
    ∀ (k i : Nat) (p : Parts), (∀ d, d < i → p.offset d = startOf dg xs d ∧ p.next d = startOf dg xs (d + 1)) →
      p.remaining = (List.range i).filter (fun d => decide (startOf dg xs d < startOf dg xs (d + 1))) →
      let p' := partsLoop c k i (startOf dg xs i) p
      (∀ d, d < i + k → p'.offset d = startOf dg xs d ∧ p'.next d = startOf dg xs (d + 1)) ∧
        p'.remaining = (List.range (i + k)).filter (fun d => decide (startOf dg xs d < startOf dg xs (d + 1)))
  | 0, i, p, h1, h2 => ⟨h1, h2⟩
  | k + 1, i, p, h1, h2 => by
    have hs : startOf dg xs i + c i = startOf dg xs (i + 1) := by rw [hc, startOf_succ]
    rw [partsLoop, hs, show i + (k + 1) = i + 1 + k by omega]
    refine partsLoop_spec hc k (i + 1) _ ?_ ?_
    · intro d hd
      dsimp only
      by_cases hdi : d = i
      · subst hdi; rw [upd_same, upd_same]; exact ⟨rfl, rfl⟩
      · rw [upd_other _ _ hdi, upd_other _ _ hdi]; exact h1 d (by omega)
    · dsimp only
      rw [List.range_succ, List.filter_append, h2]
      by_cases h0 : c i = 0
      · rw [if_pos h0, List.filter_cons_of_neg (by simp only [decide_eq_true_eq]; omega), List.filter_nil, List.append_nil]
      · rw [if_neg h0]
        congr 1
        rw [List.filter_cons_of_pos (by simp only [decide_eq_true_eq]; omega), List.filter_nil]

/-- What `partition_counts` returns. -/
structure PartsOf (dg : α → Nat) (xs : List α) (ps : Parts) : Prop where
  offset : ∀ d, d < 256 → ps.offset d = startOf dg xs d
  next : ∀ d, d < 256 → ps.next d = startOf dg xs (d + 1)
  remaining : ps.remaining = (List.range 256).filter (fun d => decide (startOf dg xs d < startOf dg xs (d + 1)))

theorem partitionCounts_spec {dg : α → Nat} {m : Mem α} {first : Nat} {xs : List α} (h : m.Seg first xs) :
    ∃ ps, partitionCounts dg m first xs.length = some ps ∧ PartsOf dg xs ps := by
  obtain ⟨c, e, hc⟩ := digitCounts_spec (dg := dg) (c := fun _ => 0) h
  have hs := partsLoop_spec (dg := dg) (xs := xs) (c := c) (fun d => by rw [hc]; omega) 256 0 ⟨fun _ => 0, fun _ => 0, []⟩ (fun d hd => by omega) rfl
  have h0 : startOf dg xs 0 = 0 := by simp [startOf]
  rw [h0] at hs
  refine ⟨_, by rw [partitionCounts, e]; rfl, ⟨fun d hd => (hs.1 d (by omega)).1, fun d hd => (hs.1 d (by omega)).2, hs.2⟩⟩

/-! ## Settled elements -/

/-- The elements of block `d` before `eff d` belong there. -/
structure Settled (dg : α → Nat) (xs ys : List α) (eff : Nat → Nat) : Prop where
  perm : ys.Perm xs
  lo : ∀ d, d < 256 → startOf dg xs d ≤ eff d
  hi : ∀ d, d < 256 → eff d ≤ startOf dg xs (d + 1)
  cls : ∀ d, d < 256 → ∀ p y, startOf dg xs d ≤ p → p < eff d → ys[p]? = some y → dg y = d

/-- All elements are in their block. -/
def AllFull (dg : α → Nat) (xs ys : List α) : Prop :=
  ∀ d, d < 256 → ∀ p y, startOf dg xs d ≤ p → p < startOf dg xs (d + 1) → ys[p]? = some y → dg y = d

theorem startOf_le (dg : α → Nat) (xs : List α) (d : Nat) : startOf dg xs d ≤ xs.length := List.length_filter_le _ _

theorem startOf_all {dg : α → Nat} {xs : List α} {D : Nat} (h : ∀ x ∈ xs, dg x < D) : startOf dg xs D = xs.length := by
  rw [startOf, List.filter_eq_self.2]
  intro x hx; simpa using h x hx

/-- Every position is in some block. -/
theorem exists_block {dg : α → Nat} {xs : List α} {p : Nat} : ∀ D, p < startOf dg xs D → ∃ d, d < D ∧ startOf dg xs d ≤ p ∧ p < startOf dg xs (d + 1)
  | 0, h => by simp [startOf] at h
  | D + 1, h => by
    by_cases hp : p < startOf dg xs D
    · obtain ⟨d, h1, h2, h3⟩ := exists_block D hp
      exact ⟨d, by omega, h2, h3⟩
    · exact ⟨D, by omega, by omega, h⟩

/-- If a block is full then all elements of its digit are in it. -/
theorem full_block {dg : α → Nat} {xs ys : List α} (hp : ys.Perm xs) {c : Nat}
    (hf : ∀ p y, startOf dg xs c ≤ p → p < startOf dg xs (c + 1) → ys[p]? = some y → dg y = c) {p : Nat} {y : α} (hy : ys[p]? = some y) (hc : dg y = c) :
    startOf dg xs c ≤ p ∧ p < startOf dg xs (c + 1) := by
  have hcnt : (ys.filter fun x => decide (dg x = c)).length = (xs.filter fun x => decide (dg x = c)).length := (hp.filter _).length_eq
  have hS := startOf_succ dg xs c
  have hle := startOf_le dg xs (c + 1)
  rw [← hp.length_eq] at hle
  generalize hs : startOf dg xs c = s at *
  generalize ht : startOf dg xs (c + 1) = t at *
  have hsplit : ys = ys.take s ++ ((ys.drop s).take (t - s) ++ ys.drop t) := by
    have h2 : (ys.drop s).drop (t - s) = ys.drop t := by rw [List.drop_drop]; congr 1; omega
    rw [← h2, List.take_append_drop, List.take_append_drop]
  have hmid : ((ys.drop s).take (t - s)).filter (fun x => decide (dg x = c)) = (ys.drop s).take (t - s) := by
    refine List.filter_eq_self.2 fun z hz => ?_
    obtain ⟨i, hi, rfl⟩ := List.mem_iff_getElem.1 hz
    have hi' := hi
    rw [List.length_take, List.length_drop] at hi'
    simp only [List.getElem_take, List.getElem_drop, decide_eq_true_eq]
    exact hf (s + i) _ (by omega) (by omega) (List.getElem?_eq_getElem _)
  have hlen : ((ys.drop s).take (t - s)).length = t - s := by rw [List.length_take, List.length_drop]; omega
  have hsum := congrArg (fun l => (l.filter fun x => decide (dg x = c)).length) hsplit
  simp only [List.filter_append, List.length_append, hmid, hlen] at hsum
  have h1 : ((ys.take s).filter fun x => decide (dg x = c)).length = 0 := by omega
  have h2 : ((ys.drop t).filter fun x => decide (dg x = c)).length = 0 := by omega
  have hpl : p < ys.length := by
    rcases Nat.lt_or_ge p ys.length with h | h
    · exact h
    · rw [List.getElem?_eq_none h] at hy; cases hy
  rw [List.length_eq_zero_iff, List.filter_eq_nil_iff] at h1 h2
  constructor
  · by_contra hlt
    refine h1 y ?_ (by simpa using hc)
    refine List.mem_iff_getElem?.2 ⟨p, ?_⟩
    rw [List.getElem?_take_of_lt (by omega), hy]
  · by_contra hge
    refine h2 y ?_ (by simpa using hc)
    refine List.mem_iff_getElem?.2 ⟨p - t, ?_⟩
    rw [List.getElem?_drop, show t + (p - t) = p by omega, hy]

/-- If all blocks but one are full then so is that one. -/
theorem AllFull.of_except {dg : α → Nat} {xs ys : List α} (hd : ∀ x ∈ xs, dg x < 256) (hp : ys.Perm xs) {e : Nat}
    (hf : ∀ d, d < 256 → d ≠ e → ∀ p y, startOf dg xs d ≤ p → p < startOf dg xs (d + 1) → ys[p]? = some y → dg y = d) : AllFull dg xs ys := by
  intro d hd256 p y h1 h2 hy
  by_cases hde : d = e
  · subst hde
    by_contra hne
    have hyd : dg y < 256 := hd y (hp.mem_iff.1 (List.mem_iff_getElem?.2 ⟨p, hy⟩))
    have := full_block hp (hf (dg y) hyd hne) hy rfl
    rcases Nat.lt_or_gt_of_ne hne with h | h
    · have := startOf_mono dg xs (show dg y + 1 ≤ d by omega); omega
    · have := startOf_mono dg xs (show d + 1 ≤ dg y by omega); omega
  · exact hf d hd256 hde p y h1 h2 hy

theorem Settled.allFull {dg : α → Nat} {xs ys : List α} {eff : Nat → Nat} (h : Settled dg xs ys eff) (hd : ∀ x ∈ xs, dg x < 256) {e : Nat}
    (hf : ∀ d, d < 256 → d ≠ e → startOf dg xs (d + 1) ≤ eff d) : AllFull dg xs ys :=
  AllFull.of_except hd h.perm fun d hd256 hde p y h1 h2 hy => h.cls d hd256 p y h1 (Nat.lt_of_lt_of_le h2 (hf d hd256 hde)) hy

/-- Moving one element that is not settled to its block. -/
theorem Settled.step {dg : α → Nat} {xs ys : List α} {eff : Nat → Nat} (h : Settled dg xs ys eff) {b it : Nat} {v : α} (hb : b < 256)
    (h1 : eff b ≤ it) (h2 : it < startOf dg xs (b + 1)) (hv : ys[it]? = some v) (hv256 : dg v < 256) :
    eff (dg v) < startOf dg xs (dg v + 1) ∧ Settled dg xs (swapped ys it (eff (dg v))) (upd eff (dg v) (eff (dg v) + 1)) := by
  have hnot : eff (dg v) < startOf dg xs (dg v + 1) := by
    by_contra hge
    have hfull := full_block h.perm (c := dg v) (fun p y a1 a2 hy => h.cls _ hv256 p y a1 (by omega) hy) hv rfl
    by_cases hbv : b = dg v
    · subst hbv; omega
    · have hlo := h.lo b hb
      rcases Nat.lt_or_gt_of_ne hbv with hl | hl
      · have := startOf_mono dg xs (show b + 1 ≤ dg v by omega); omega
      · have := startOf_mono dg xs (show dg v + 1 ≤ b by omega); omega
  refine ⟨hnot, ?_⟩
  have hlen := h.perm.length_eq
  have hi : it < ys.length := by have := startOf_le dg xs (b + 1); omega
  have hj : eff (dg v) < ys.length := by have := startOf_le dg xs (dg v + 1); omega
  refine ⟨swapped_perm.trans h.perm, ?_, ?_, ?_⟩
  · intro d hd
    by_cases hdv : d = dg v
    · subst hdv; rw [upd_same]; have := h.lo _ hd; omega
    · rw [upd_other _ _ hdv]; exact h.lo d hd
  · intro d hd
    by_cases hdv : d = dg v
    · subst hdv; rw [upd_same]; omega
    · rw [upd_other _ _ hdv]; exact h.hi d hd
  · intro d hd p y hp1 hp2 hy
    rw [swapped_get hi hj] at hy
    by_cases hpe : p = eff (dg v)
    · rw [if_pos hpe, hv] at hy
      injection hy with hy; subst hy
      by_contra hne
      rw [upd_other _ _ (Ne.symm hne)] at hp2
      have a1 := h.hi d hd
      have a2 := h.lo _ hv256
      rcases Nat.lt_or_gt_of_ne hne with hl | hl
      · have := startOf_mono dg xs (show dg v + 1 ≤ d by omega); omega
      · have := startOf_mono dg xs (show d + 1 ≤ dg v by omega); omega
    · rw [if_neg hpe] at hy
      have hp3 : p < eff d := by
        by_cases hdv : d = dg v
        · subst hdv; rw [upd_same] at hp2; omega
        · rwa [upd_other _ _ hdv] at hp2
      by_cases hpi : p = it
      · exfalso
        have a1 := h.hi d hd
        have a2 := h.lo _ hb
        by_cases hdb : d = b
        · subst hdb; omega
        · rcases Nat.lt_or_gt_of_ne hdb with hl | hl
          · have := startOf_mono dg xs (show d + 1 ≤ b by omega); omega
          · have := startOf_mono dg xs (show b + 1 ≤ d by omega); omega
      · rw [if_neg hpi] at hy
        exact h.cls d hd p y hp1 hp3 hy

/-- The number of elements that are not settled. -/
def gap (dg : α → Nat) (xs : List α) (eff : Nat → Nat) : Nat → Nat
  | 0 => 0
  | D + 1 => gap dg xs eff D + (startOf dg xs (D + 1) - eff D)

theorem gap_congr {dg : α → Nat} {xs : List α} {eff eff' : Nat → Nat} : ∀ D, (∀ d, d < D → eff d = eff' d) → gap dg xs eff D = gap dg xs eff' D
  | 0, _ => rfl
  | D + 1, h => by rw [gap, gap, gap_congr D fun d hd => h d (by omega), h D (by omega)]

theorem gap_upd {dg : α → Nat} {xs : List α} {eff : Nat → Nat} {c : Nat} (hc : eff c < startOf dg xs (c + 1)) : ∀ D, c < D →
    gap dg xs (upd eff c (eff c + 1)) D + 1 = gap dg xs eff D
  | 0, h => by omega
  | D + 1, h => by
    rw [gap, gap]
    by_cases hcD : c = D
    · subst hcD
      rw [upd_same, gap_congr (eff' := eff) c fun d hd => upd_other _ _ (by omega)]
      omega
    · rw [upd_other _ _ (by omega)]
      have := gap_upd hc D (by omega)
      omega

theorem gap_start (dg : α → Nat) (xs : List α) : ∀ D, gap dg xs (startOf dg xs) D = startOf dg xs D
  | 0 => by simp [gap, startOf]
  | D + 1 => by rw [gap, gap_start dg xs D]; have := startOf_mono dg xs (show D ≤ D + 1 by omega); omega

theorem gap_pos {dg : α → Nat} {xs : List α} {eff : Nat → Nat} {c : Nat} (hc : eff c < startOf dg xs (c + 1)) {D : Nat} (hD : c < D) : 0 < gap dg xs eff D := by
  have := gap_upd hc D hD; omega

theorem Settled.start {dg : α → Nat} {xs : List α} : Settled dg xs xs (startOf dg xs) :=
  ⟨List.Perm.refl _, fun _ _ => Nat.le_refl _, fun d _ => startOf_mono dg xs (by omega), fun d _ p y h1 h2 => by omega⟩

theorem Settled.congr {dg : α → Nat} {xs ys : List α} {eff eff' : Nat → Nat} (h : Settled dg xs ys eff) (he : ∀ d, d < 256 → eff d = eff' d) : Settled dg xs ys eff' :=
  ⟨h.perm, fun d hd => he d hd ▸ h.lo d hd, fun d hd => he d hd ▸ h.hi d hd, fun d hd p y h1 h2 hy => h.cls d hd p y h1 (he d hd ▸ h2) hy⟩

attribute [irreducible] gap

/-! ## American flag sort -/

section
variable {dg : α → Nat} {xs : List α} {ps : Parts}

theorem PartsOf.mem (h : PartsOf dg xs ps) {d : Nat} : d ∈ ps.remaining ↔ d < 256 ∧ startOf dg xs d < startOf dg xs (d + 1) := by
  rw [h.remaining, List.mem_filter, List.mem_range, decide_eq_true_eq]

theorem PartsOf.increasing (h : PartsOf dg xs ps) : ps.remaining.Pairwise (· < ·) := by
  rw [h.remaining]; exact (List.pairwise_lt_range).filter _

theorem PartsOf.get_mem (_ : PartsOf dg xs ps) {i d : Nat} (hi : ps.remaining[i]? = some d) : d ∈ ps.remaining := List.mem_iff_getElem?.2 ⟨i, hi⟩

theorem PartsOf.get_lt (h : PartsOf dg xs ps) {i j d e : Nat} (hi : ps.remaining[i]? = some d) (hj : ps.remaining[j]? = some e) (hij : i < j) : d < e := by
  have hjl : j < ps.remaining.length := by
    rcases Nat.lt_or_ge j ps.remaining.length with h' | h'
    · exact h'
    · rw [List.getElem?_eq_none h'] at hj; cases hj
  rw [List.getElem?_eq_getElem hjl] at hj
  rw [List.getElem?_eq_getElem (by omega)] at hi
  injection hi with hi; injection hj with hj
  rw [← hi, ← hj]
  exact List.pairwise_iff_getElem.1 h.increasing i j _ _ hij

theorem PartsOf.get_lt_iff (h : PartsOf dg xs ps) {i j d e : Nat} (hi : ps.remaining[i]? = some d) (hj : ps.remaining[j]? = some e) : d < e ↔ i < j := by
  constructor
  · intro hde
    by_contra hij
    rcases Nat.lt_or_ge j i with h' | h'
    · have := h.get_lt hj hi h'; omega
    · obtain rfl : i = j := by omega
      rw [hi] at hj; injection hj; omega
  · exact h.get_lt hi hj

theorem nextBlock_spec (h : PartsOf dg xs ps) {offset : Nat → Nat} : ∀ (f ci : Nat), ps.remaining.length ≤ f + ci + 1 → ci + 1 < ps.remaining.length →
    ∃ r, nextBlock ps offset f ci = some r ∧
      (r = none → ∀ j d, ci < j → j < ps.remaining.length - 1 → ps.remaining[j]? = some d → offset d = ps.next d) ∧
      (∀ ci', r = some ci' → ci < ci' ∧ ci' + 1 < ps.remaining.length ∧
        (∀ j d, ci < j → j < ci' → ps.remaining[j]? = some d → offset d = ps.next d) ∧ ∃ c, ps.remaining[ci']? = some c ∧ offset c ≠ ps.next c)
  | 0, ci, h1, h2 => by omega
  | f + 1, ci, h1, h2 => by
    rw [nextBlock]
    split
    · rename_i hl
      exact ⟨none, rfl, (fun _ j d a b => by omega), (fun ci' hc => by cases hc)⟩
    · rename_i hl
      rw [List.getElem?_eq_getElem h2]
      simp only [Option.bind_eq_bind, Option.bind_some]
      split
      · rename_i hne
        refine ⟨some (ci + 1), rfl, (fun hc => by cases hc), fun ci' hc => ?_⟩
        injection hc with hc; subst hc
        exact ⟨by omega, by omega, fun j d a b => by omega, _, List.getElem?_eq_getElem h2, hne⟩
      · rename_i heq
        rw [Decidable.not_not] at heq
        obtain ⟨r, e, r1, r2⟩ := nextBlock_spec h (offset := offset) f (ci + 1) (by omega) (by omega)
        refine ⟨r, e, fun hr j d a b hj => ?_, fun ci' hr => ?_⟩
        · by_cases hjc : j = ci + 1
          · subst hjc
            rw [List.getElem?_eq_getElem h2] at hj
            injection hj with hj; rw [← hj]; exact heq
          · exact r1 hr j d (by omega) b hj
        · obtain ⟨b1, b2, b3, b4⟩ := r2 ci' hr
          refine ⟨by omega, b2, fun j d a b hj => ?_, b4⟩
          by_cases hjc : j = ci + 1
          · subst hjc
            rw [List.getElem?_eq_getElem h2] at hj
            injection hj with hj; rw [← hj]; exact heq
          · exact b3 j d (by omega) b hj

/-- How far each block is settled while block `cur` is worked on at position `it`. -/
def effOf (dg : α → Nat) (xs : List α) (offset : Nat → Nat) (cur it : Nat) (d : Nat) : Nat :=
  if d < cur then startOf dg xs (d + 1) else if d = cur then it else offset d

theorem effOf_lt {offset : Nat → Nat} {cur it d : Nat} (h : d < cur) : effOf dg xs offset cur it d = startOf dg xs (d + 1) := by rw [effOf, if_pos h]
theorem effOf_eq {offset : Nat → Nat} {cur it : Nat} : effOf dg xs offset cur it cur = it := by rw [effOf, if_neg (by omega), if_pos rfl]
theorem effOf_gt {offset : Nat → Nat} {cur it d : Nat} (h : cur < d) : effOf dg xs offset cur it d = offset d := by rw [effOf, if_neg (by omega), if_neg (by omega)]

theorem flagLoop_spec (hd : ∀ x ∈ xs, dg x < 256) (hps : PartsOf dg xs ps) {first : Nat} : ∀ (f : Nat) {m : Mem α} {offset : Nat → Nat} {ci it cur : Nat} {ys : List α},
    m.Seg first ys → ps.remaining[ci]? = some cur → ci + 1 < ps.remaining.length → Settled dg xs ys (effOf dg xs offset cur it) →
    it < startOf dg xs (cur + 1) → gap dg xs (effOf dg xs offset cur it) 256 < f →
    ∃ m' ys' early, flagLoop dg ps first xs.length f m offset ci (first + it) = some (m', early) ∧ m'.Seg first ys' ∧ ys'.Perm xs ∧ AllFull dg xs ys' ∧
      (∀ last, ps.remaining[ps.remaining.length - 1]? = some last → startOf dg xs last + 2 ≤ xs.length → early = true) ∧ m.SameOff m' (InRange first xs.length)
  | 0, m, offset, ci, it, cur, ys, hs, hcur, hci, hset, hit, hgap => by omega
  | f + 1, m, offset, ci, it, cur, ys, hs, hcur, hci, hset, hit, hgap => by
    have hc256 := (hps.mem.1 (hps.get_mem hcur)).1
    have hlen := hset.perm.length_eq
    have hitn : it < ys.length := by have := startOf_le dg xs (cur + 1); omega
    obtain ⟨v, hv⟩ : ∃ v, ys[it]? = some v := ⟨_, List.getElem?_eq_getElem hitn⟩
    have hv256 : dg v < 256 := hd v (hset.perm.mem_iff.1 (List.mem_iff_getElem?.2 ⟨it, hv⟩))
    obtain ⟨hlt, hstep⟩ := hset.step hc256 (by rw [effOf_eq]) hit hv hv256
    have hgap' := gap_upd hlt 256 hv256
    obtain ⟨last, hlast⟩ : ∃ e, ps.remaining[ps.remaining.length - 1]? = some e := ⟨_, List.getElem?_eq_getElem (by omega)⟩
    have hlm := hps.mem.1 (hps.get_mem hlast)
    have hcl : cur < last := hps.get_lt hcur hlast (by omega)
    have hSl := startOf_mono dg xs (show cur + 1 ≤ last by omega)
    have hSn := startOf_le dg xs (last + 1)
    rw [flagLoop, hs.get hitn, hv, hcur]
    simp only [Option.bind_eq_bind, Option.bind_some]
    by_cases hvc : dg v = cur
    · rw [if_pos hvc]
      rw [hvc, effOf_eq] at hstep hgap' hlt
      have hsame : swapped ys it it = ys := by
        apply List.ext_getElem?
        intro k
        rw [swapped_get hitn hitn]
        split
        · rename_i hk; rw [hk]
        · rfl
      rw [hsame] at hstep
      have heff : ∀ d, upd (effOf dg xs offset cur it) cur (it + 1) d = effOf dg xs offset cur (it + 1) d := by
        intro d
        by_cases hdc : d = cur
        · subst hdc; rw [upd_same, effOf_eq]
        · rw [upd_other _ _ hdc, effOf, effOf, if_neg hdc, if_neg hdc]
      have hstep' := hstep.congr (eff' := effOf dg xs offset cur (it + 1)) fun d _ => heff d
      rw [gap_congr (eff' := effOf dg xs offset cur (it + 1)) 256 fun d _ => heff d] at hgap'
      by_cases hend : first + it + 1 = first + xs.length - 1
      · rw [if_pos hend]
        refine ⟨m, ys, false, rfl, hs, hset.perm, hstep'.allFull hd (e := last) fun d hd256 hde => ?_, fun l hl h2 => ?_, fun _ _ => rfl⟩
        swap
        · rw [hlast] at hl
          injection hl with hl
          subst hl
          omega
        rcases Nat.lt_trichotomy d cur with h | h | h
        · rw [effOf_lt h]
        · subst h; rw [effOf_eq]; omega
        · rw [effOf_gt h]
          have hlo := hstep'.lo d hd256
          rw [effOf_gt h] at hlo
          rcases Nat.lt_or_gt_of_ne hde with h' | h'
          · have a1 := startOf_mono dg xs (show d + 1 ≤ last by omega)
            have a2 := startOf_mono dg xs (show cur + 1 ≤ d by omega)
            omega
          · have a1 := startOf_mono dg xs (show last + 1 ≤ d by omega)
            have a2 := startOf_le dg xs (d + 1)
            omega
      · rw [if_neg hend, hps.next cur hc256]
        by_cases hbe : first + it + 1 = first + startOf dg xs (cur + 1)
        · rw [if_pos hbe]
          obtain ⟨r, e, r1, r2⟩ := nextBlock_spec hps (offset := offset) ps.remaining.length ci (by omega) hci
          simp only [e, Option.bind_some]
          have hempty : ∀ d, d < 256 → d ∉ ps.remaining → startOf dg xs (d + 1) ≤ effOf dg xs offset cur (it + 1) d := by
            intro d hd256 hno
            have := hstep'.lo d hd256
            rw [hps.mem] at hno
            omega
          have hcomplete : ∀ j d : Nat, ps.remaining[j]? = some d → offset d = ps.next d → cur < d → effOf dg xs offset cur (it + 1) d = startOf dg xs (d + 1) := by
            intro j d hj ho hl
            rw [effOf_gt hl, ho, hps.next d (hps.mem.1 (hps.get_mem hj)).1]
          cases r with
          | none =>
            refine ⟨m, ys, true, rfl, hs, hset.perm, hstep'.allFull hd (e := last) fun d hd256 hde => ?_, fun _ _ _ => rfl, fun _ _ => rfl⟩
            by_cases hin : d ∈ ps.remaining
            · obtain ⟨j, hj⟩ := List.mem_iff_getElem?.1 hin
              rcases Nat.lt_trichotomy d cur with h | h | h
              · rw [effOf_lt h]
              · subst h; rw [effOf_eq]; omega
              · have hjc := (hps.get_lt_iff hcur hj).1 h
                have hjl : j < ps.remaining.length := by
                  rcases Nat.lt_or_ge j ps.remaining.length with h' | h'
                  · exact h'
                  · rw [List.getElem?_eq_none h'] at hj; cases hj
                have hjne : j ≠ ps.remaining.length - 1 := by
                  rintro rfl; rw [hlast] at hj; injection hj with hj; exact hde hj.symm
                rw [hcomplete j d hj (r1 rfl j d hjc (by omega) hj) h]
            · exact hempty d hd256 hin
          | some ci' =>
            obtain ⟨b1, b2, b3, c, hc, hne⟩ := r2 ci' rfl
            have hcc : cur < c := hps.get_lt hcur hc b1
            have hc256' := (hps.mem.1 (hps.get_mem hc)).1
            have hnew : ∀ d, d < 256 → effOf dg xs offset cur (it + 1) d = effOf dg xs offset c (offset c) d := by
              intro d hd256
              rcases Nat.lt_trichotomy d c with h | h | h
              · rw [effOf_lt h]
                have hhi := hstep'.hi d hd256
                by_cases hin : d ∈ ps.remaining
                · obtain ⟨j, hj⟩ := List.mem_iff_getElem?.1 hin
                  rcases Nat.lt_trichotomy d cur with h' | h' | h'
                  · rw [effOf_lt h']
                  · subst h'; rw [effOf_eq]; omega
                  · exact hcomplete j d hj (b3 j d ((hps.get_lt_iff hcur hj).1 h') ((hps.get_lt_iff hj hc).1 h) hj) h'
                · have := hempty d hd256 hin; omega
              · subst h; rw [effOf_eq, effOf_gt hcc]
              · rw [effOf_gt h, effOf_gt (by omega)]
            simp only [hc, Option.bind_some]
            refine flagLoop_spec hd hps f hs hc b2 (hstep'.congr hnew) ?_ ?_
            · have := hstep'.hi c hc256'
              rw [effOf_gt hcc] at this
              rw [hps.next c hc256'] at hne
              omega
            · rw [← gap_congr 256 hnew]; omega
        · rw [if_neg hbe]
          exact flagLoop_spec hd hps f hs hcur hci hstep' (by omega) (by omega)
    · rw [if_neg hvc]
      have hgt : cur < dg v := by
        rcases Nat.lt_trichotomy (dg v) cur with h | h | h
        · rw [effOf_lt h] at hlt; omega
        · exact absurd h hvc
        · exact h
      rw [effOf_gt hgt] at hlt hstep hgap'
      have hoffn : offset (dg v) < xs.length := by have := startOf_le dg xs (dg v + 1); omega
      rw [if_pos hoffn]
      obtain ⟨m1, e1, s1, f1⟩ := swapAt_spec hs (i := it) (j := offset (dg v)) hitn (by omega)
      simp only [e1, Option.bind_some]
      have heff : ∀ d, upd (effOf dg xs offset cur it) (dg v) (offset (dg v) + 1) d = effOf dg xs (upd offset (dg v) (offset (dg v) + 1)) cur it d := by
        intro d
        by_cases hdv : d = dg v
        · subst hdv; rw [upd_same, effOf_gt hgt, upd_same]
        · rw [upd_other _ _ hdv, effOf, effOf, upd_other _ _ hdv]
      obtain ⟨m', ys', early, e2, s2, p2, a2, l2, f2⟩ := flagLoop_spec hd hps f s1 hcur hci (hstep.congr fun d _ => heff d) hit (by
        rw [← gap_congr 256 fun d _ => heff d]; omega)
      refine ⟨m', ys', early, e2, s2, p2, a2, l2, ?_⟩
      rw [hlen] at f1
      exact f1.trans f2

/-! ## ska_byte_sort -/

theorem swapped_self {ys : List α} {i : Nat} (h : i < ys.length) : swapped ys i i = ys := by
  apply List.ext_getElem?
  intro k
  rw [swapped_get h h]
  split
  · rename_i hk; rw [hk]
  · rfl

theorem skaBlock_spec (hd : ∀ x ∈ xs, dg x < 256) {first b : Nat} (hb : b < 256) : ∀ (k it : Nat) {st : SkaState α} {ys : List α},
    st.1.Seg first ys → Settled dg xs ys st.2 → st.2 b ≤ it → it + k = startOf dg xs (b + 1) →
    ∃ st' ys', skaBlock dg first xs.length k (first + it) st = some st' ∧ st'.1.Seg first ys' ∧ Settled dg xs ys' st'.2 ∧
      gap dg xs st'.2 256 + k = gap dg xs st.2 256 ∧ (∀ d, st.2 d ≤ st'.2 d) ∧ st.1.SameOff st'.1 (InRange first xs.length)
  | 0, it, st, ys, hs, hset, h1, h2 => ⟨st, ys, rfl, hs, hset, rfl, fun _ => Nat.le_refl _, fun _ _ => rfl⟩
  | k + 1, it, st, ys, hs, hset, h1, h2 => by
    have hlen := hset.perm.length_eq
    have hitn : it < ys.length := by have := startOf_le dg xs (b + 1); omega
    obtain ⟨v, hv⟩ : ∃ v, ys[it]? = some v := ⟨_, List.getElem?_eq_getElem hitn⟩
    have hv256 : dg v < 256 := hd v (hset.perm.mem_iff.1 (List.mem_iff_getElem?.2 ⟨it, hv⟩))
    obtain ⟨hlt, hstep⟩ := hset.step hb h1 (by omega) hv hv256
    have hgap := gap_upd hlt 256 hv256
    have hn : st.2 (dg v) < xs.length := by have := startOf_le dg xs (dg v + 1); omega
    have hswap : ∃ m1, (if first + it ≠ first + st.2 (dg v) then st.1.swapAt (first + it) (first + st.2 (dg v)) else some st.1) = some m1 ∧
        m1.Seg first (swapped ys it (st.2 (dg v))) ∧ st.1.SameOff m1 (InRange first xs.length) := by
      by_cases he : first + it = first + st.2 (dg v)
      · rw [if_neg (by omega)]
        refine ⟨st.1, rfl, ?_, fun _ _ => rfl⟩
        rw [show st.2 (dg v) = it by omega, swapped_self hitn]; exact hs
      · rw [if_pos he]
        obtain ⟨m1, e1, s1, f1⟩ := swapAt_spec hs (i := it) (j := st.2 (dg v)) hitn (by omega)
        exact ⟨m1, e1, s1, hlen ▸ f1⟩
    obtain ⟨m1, e1, s1, f1⟩ := hswap
    obtain ⟨st', ys', e2, s2, t2, g2, mono, f2⟩ := skaBlock_spec hd hb k (it + 1) (st := (m1, upd st.2 (dg v) (st.2 (dg v) + 1))) s1 hstep (by
      dsimp only
      by_cases hbv : b = dg v
      · rw [hbv, upd_same, ← hbv]; omega
      · rw [upd_other _ _ hbv]; omega) (by omega)
    refine ⟨st', ys', ?_, s2, t2, ?_, ?_, f1.trans f2⟩
    · rw [skaBlock, hs.get hitn, hv]
      simp only [Option.bind_eq_bind, Option.bind_some]
      rw [if_pos hn]
      by_cases he : first + it ≠ first + st.2 (dg v)
      · rw [if_pos he] at e1 ⊢
        simp only [e1, Option.bind_some]
        exact e2
      · rw [if_neg he] at e1 ⊢
        injection e1 with e1
        rw [e1]; exact e2
    · dsimp only at g2; omega
    · intro d
      have := mono d
      dsimp only at this
      by_cases hdv : d = dg v
      · subst hdv; rw [upd_same] at this; omega
      · rwa [upd_other _ _ hdv] at this

end

/-- What is needed of a predicate with a state: it never undoes what is complete, and it makes
progress whenever it is true. -/
structure PredSpec {σ : Type} (p : σ → Nat → Option (Bool × σ)) (I : σ → Prop) (comp : σ → Nat → Prop) (gap : σ → Nat) (dom : Nat → Prop) : Prop where
  run : ∀ st x, I st → dom x → ∃ b st', p st x = some (b, st') ∧ I st' ∧ (∀ d, dom d → comp st d → comp st' d) ∧ gap st' ≤ gap st ∧
    (b = false → comp st' x) ∧ (b = true → gap st' < gap st)

section
variable {σ : Type} {p : σ → Nat → Option (Bool × σ)} {I : σ → Prop} {comp : σ → Nat → Prop} {gp : σ → Nat} {dom : Nat → Prop}

/-- A state reached from another one. -/
structure Reach (I : σ → Prop) (comp : σ → Nat → Prop) (gp : σ → Nat) (dom : Nat → Prop) (st st' : σ) : Prop where
  inv : I st'
  mono : ∀ d, dom d → comp st d → comp st' d
  le : gp st' ≤ gp st

theorem Reach.trans {s1 s2 s3 : σ} (h1 : Reach I comp gp dom s1 s2) (h2 : Reach I comp gp dom s2 s3) : Reach I comp gp dom s1 s3 :=
  ⟨h2.inv, fun d hd hc => h2.mono d hd (h1.mono d hd hc), Nat.le_trans h2.le h1.le⟩

theorem Reach.refl {s : σ} (h : I s) : Reach I comp gp dom s s := ⟨h, fun _ _ h => h, Nat.le_refl _⟩

theorem findNotS_spec (hp : PredSpec p I comp gp dom) {rem : List Nat} (hr : ∀ x ∈ rem, dom x) : ∀ (k i : Nat) {st : σ}, I st → i + k ≤ rem.length →
    ∃ j st', findNotS p rem k i st = some (j, st') ∧ Reach I comp gp dom st st' ∧ i ≤ j ∧ j ≤ i + k ∧ (j < i + k → ∀ x, rem[j]? = some x → comp st' x) ∧
      (i < j → gp st' < gp st)
  | 0, i, st, hI, hk => ⟨i, st, rfl, .refl hI, by omega, by omega, by omega, by omega⟩
  | k + 1, i, st, hI, hk => by
    have hx : rem[i]? = some rem[i] := List.getElem?_eq_getElem (by omega)
    obtain ⟨b, st', e, hI', mono, le, hf, ht⟩ := hp.run st rem[i] hI (hr _ (List.getElem_mem (by omega)))
    rw [findNotS, hx]
    simp only [Option.bind_eq_bind, Option.bind_some, e]
    cases b with
    | false =>
      refine ⟨i, st', rfl, ⟨hI', mono, le⟩, by omega, by omega, ?_, by omega⟩
      intro _ x hx'
      rw [hx] at hx'; injection hx' with hx'; rw [← hx']; exact hf rfl
    | true =>
      rw [if_pos rfl]
      obtain ⟨j, st2, e2, r2, a, b, c, d⟩ := findNotS_spec hp hr k (i + 1) hI' (by omega)
      have := ht rfl
      have := r2.le
      exact ⟨j, st2, e2, Reach.trans ⟨hI', mono, le⟩ r2, by omega, by omega, fun h => c (by omega), fun _ => by omega⟩

theorem advanceLastS_spec (hp : PredSpec p I comp gp dom) {rem : List Nat} (hr : ∀ x ∈ rem, dom x) {first : Nat} : ∀ (k : Nat) {st : σ}, I st → first + k ≤ rem.length →
    ∃ l st', advanceLastS p rem first k st = some (l, st') ∧ Reach I comp gp dom st st' ∧ first ≤ l ∧ (0 < k → l < first + k) ∧ (k = 0 → l = first) ∧
      ∀ q x, l < q → q < first + k → rem[q]? = some x → comp st' x
  | 0, st, hI, hk => ⟨first, st, rfl, .refl hI, by omega, by omega, fun _ => rfl, fun q x a b => by omega⟩
  | k + 1, st, hI, hk => by
    have hx : rem[first + k]? = some rem[first + k] := List.getElem?_eq_getElem (by omega)
    have hdom : dom rem[first + k] := hr _ (List.getElem_mem (by omega))
    obtain ⟨b, st', e, hI', mono, le, hf, ht⟩ := hp.run st rem[first + k] hI hdom
    rw [advanceLastS, hx]
    simp only [Option.bind_eq_bind, Option.bind_some, e]
    cases b with
    | true => exact ⟨first + k, st', rfl, ⟨hI', mono, le⟩, by omega, by omega, by omega, fun q x a b => by omega⟩
    | false =>
      rw [if_neg (by simp)]
      obtain ⟨l, st2, e2, r2, a, b, c, d⟩ := advanceLastS_spec hp hr (first := first) k hI' (by omega)
      refine ⟨l, st2, e2, Reach.trans ⟨hI', mono, le⟩ r2, a, ?_, by omega, ?_⟩
      · intro _; rcases Nat.eq_zero_or_pos k with h0 | h0
        · have := c h0; omega
        · have := b h0; omega
      · intro q x h1 h2 hq
        by_cases hqk : q = first + k
        · subst hqk
          rw [hx] at hq; injection hq with hq; rw [← hq]
          exact r2.mono _ hdom (hf rfl)
        · exact d q x h1 (by omega) hq

theorem exchange_perm {rem : List Nat} {i j a b : Nat} (hij : i ≠ j) (hi : rem[i]? = some a) (hj : rem[j]? = some b) : ((rem.set i b).set j a).Perm rem := by
  have hi' : i < rem.length := by
    rcases Nat.lt_or_ge i rem.length with h | h
    · exact h
    · rw [List.getElem?_eq_none h] at hi; cases hi
  have hj' : j < rem.length := by
    rcases Nat.lt_or_ge j rem.length with h | h
    · exact h
    · rw [List.getElem?_eq_none h] at hj; cases hj
  have : (rem.set i b).set j a = swapped rem i j := by
    apply List.ext_getElem?
    intro k
    rw [swapped_get hi' hj', List.getElem?_set, List.getElem?_set, hi, hj]
    simp only [List.length_set]
    by_cases h1 : j = k
    · subst h1; simp [hj']
    · by_cases h2 : i = k
      · subst h2; simp [h1, Ne.symm h1, hi']
      · simp [h1, h2, Ne.symm h1, Ne.symm h2]
  rw [this]; exact swapped_perm

theorem partitionLoopS_spec (hp : PredSpec p I comp gp dom) : ∀ (f : Nat) {rem : List Nat} {first last : Nat} {st : σ}, (∀ x ∈ rem, dom x) → I st →
    first ≤ last → last ≤ rem.length → (first < last → last < rem.length) → last - first < f →
    (∀ q x, (q = first ∨ last < q) → rem[q]? = some x → comp st x) →
    ∃ rem' l st', partitionLoopS p f rem first last st = some (rem', l, st') ∧ rem'.Perm rem ∧ Reach I comp gp dom st st' ∧ l ≤ last ∧
      ∀ q x, l ≤ q → rem'[q]? = some x → comp st' x
  | 0, _, _, _, _, _, _, _, _, _, hf, _ => by omega
  | f + 1, rem, first, last, st, hr, hI, h1, h2, h3, hf, hc => by
    rw [partitionLoopS]
    by_cases he : first = last
    · rw [if_pos he]
      refine ⟨rem, first, st, rfl, List.Perm.refl _, .refl hI, h1, fun q x hq hx => hc q x ?_ hx⟩
      omega
    · rw [if_neg he]
      have hl := h3 (by omega)
      have ha : rem[first]? = some rem[first] := List.getElem?_eq_getElem (by omega)
      have hb : rem[last]? = some rem[last] := List.getElem?_eq_getElem hl
      simp only [ha, hb, Option.bind_eq_bind, Option.bind_some]
      have hperm := exchange_perm he ha hb
      have hget : ∀ q, first < q → ((rem.set first rem[last]).set last rem[first])[q]? = if q = last then some rem[first] else rem[q]? := by
        intro q hq
        rw [List.getElem?_set, List.getElem?_set]
        simp only [List.length_set]
        by_cases hql : last = q
        · subst hql; simp [hl]
        · simp [hql, Ne.symm hql, show first ≠ q by omega]
      generalize (rem.set first rem[last]).set last rem[first] = rem1 at hperm hget
      have hr1 : ∀ x ∈ rem1, dom x := fun x hx => hr x (hperm.mem_iff.1 hx)
      have hlen := hperm.length_eq
      have hc1 : ∀ q x, last ≤ q → rem1[q]? = some x → comp st x := by
        intro q x hq hx
        rw [hget q (by omega)] at hx
        split at hx
        · exact hc first x (.inl rfl) (by rw [ha]; exact hx)
        · exact hc q x (.inr (by omega)) hx
      obtain ⟨j, st1, e1, r1, b1, b2, b3, b4⟩ := findNotS_spec hp hr1 (last - first) first hI (by omega)
      simp only [e1, Option.bind_some]
      have hc2 : ∀ q x, last ≤ q → rem1[q]? = some x → comp st1 x := fun q x hq hx =>
        r1.mono _ (hr1 x (List.mem_iff_getElem?.2 ⟨q, hx⟩)) (hc1 q x hq hx)
      by_cases hj : j = last
      · rw [if_pos hj]
        exact ⟨rem1, j, st1, rfl, hperm, r1, by omega, fun q x hq hx => hc2 q x (by omega) hx⟩
      · rw [if_neg hj]
        obtain ⟨l, st2, e2, r2, d1, d2, d3, d4⟩ := advanceLastS_spec hp hr1 (first := j) (last - j) r1.inv (by omega)
        simp only [e2, Option.bind_some]
        have hll := d2 (by omega)
        obtain ⟨rem', l', st3, e3, p3, r3, g1, g2⟩ := partitionLoopS_spec hp f hr1 r2.inv d1 (by omega) (by omega) (by omega) (fun q x hq hx => by
          have hdx : dom x := hr1 x (List.mem_iff_getElem?.2 ⟨q, hx⟩)
          rcases hq with rfl | hq
          · exact r2.mono _ hdx (b3 (by omega) x hx)
          · by_cases hql : q < last
            · exact d4 q x hq (by omega) hx
            · exact r2.mono _ hdx (hc2 q x (by omega) hx))
        exact ⟨rem', l', st3, e3, p3.trans hperm, r1.trans (r2.trans r3), by omega, g2⟩

theorem partitionS_spec (hp : PredSpec p I comp gp dom) {rem : List Nat} {last : Nat} {st : σ} (hr : ∀ x ∈ rem, dom x) (hI : I st) (hl : last ≤ rem.length)
    (h0 : 0 < last) (hc : ∀ q x, last ≤ q → rem[q]? = some x → comp st x) :
    ∃ rem' l st', partitionS p rem last st = some (rem', l, st') ∧ rem'.Perm rem ∧ Reach I comp gp dom st st' ∧ l ≤ last ∧ gp st' + l < gp st + last ∧
      ∀ q x, l ≤ q → rem'[q]? = some x → comp st' x := by
  obtain ⟨j, st1, e1, r1, b1, b2, b3, b4⟩ := findNotS_spec hp hr last 0 hI (by omega)
  obtain ⟨l, st2, e2, r2, d1, d2, d3, d4⟩ := advanceLastS_spec hp hr (first := j) (last - j) r1.inv (by omega)
  have hll : l ≤ last ∧ (j < last → l < last) := by
    rcases Nat.lt_or_ge j last with h | h
    · have := d2 (by omega); omega
    · have := d3 (by omega); omega
  obtain ⟨rem', l', st3, e3, p3, r3, g1, g2⟩ := partitionLoopS_spec hp (l - j + 1) hr r2.inv d1 (by omega) (by omega) (by omega) (fun q x hq hx => by
    have hdx : dom x := hr x (List.mem_iff_getElem?.2 ⟨q, hx⟩)
    by_cases hql : last ≤ q
    · exact r2.mono _ hdx (r1.mono _ hdx (hc q x hql hx))
    · rcases hq with rfl | hq
      · exact r2.mono _ hdx (b3 (by omega) x hx)
      · exact d4 q x hq (by omega) hx)
  refine ⟨rem', l', st3, ?_, p3, r1.trans (r2.trans r3), by omega, ?_, g2⟩
  · rw [partitionS, e1]
    simp only [Option.bind_eq_bind, Option.bind_some]
    rw [e2]
    simp only [Option.bind_some]
    exact e3
  · have a1 := r1.le
    have a2 := r2.le
    have a3 := r3.le
    rcases Nat.lt_or_ge j last with h | h
    · have := hll.2 h; omega
    · have := b4 (by omega); omega

theorem skaLoop_spec (hp : PredSpec p I comp gp dom) : ∀ (f : Nat) {rem : List Nat} {last : Nat} {st : σ}, (∀ x ∈ rem, dom x) → I st → last ≤ rem.length →
    gp st + last < f → (∀ q x, last ≤ q → rem[q]? = some x → comp st x) →
    ∃ rem' st', skaLoop p f rem last st = some (rem', st') ∧ rem'.Perm rem ∧ I st' ∧ ∀ q x, 1 ≤ q → rem'[q]? = some x → comp st' x
  | 0, _, _, _, _, _, _, hf, _ => by omega
  | f + 1, rem, last, st, hr, hI, hl, hf, hc => by
    rw [skaLoop]
    by_cases h1 : last > 1
    · rw [if_pos h1]
      obtain ⟨rem1, l, st1, e1, p1, r1, a1, a2, a3⟩ := partitionS_spec hp hr hI hl (by omega) hc
      simp only [e1, Option.bind_eq_bind, Option.bind_some]
      obtain ⟨rem2, st2, e2, p2, i2, c2⟩ := skaLoop_spec hp f (fun x hx => hr x (p1.mem_iff.1 hx)) r1.inv (by rw [p1.length_eq]; omega) (by omega) a3
      exact ⟨rem2, st2, e2, p2.trans p1, i2, c2⟩
    · rw [if_neg h1]
      exact ⟨rem, st, rfl, List.Perm.refl _, hI, fun q x hq hx => hc q x (by omega) hx⟩

end

section
variable {dg : α → Nat} {xs : List α} {ps : Parts}

/-- What the state of the predicate of `ska_byte_sort` satisfies. -/
def SkaInv (dg : α → Nat) (xs : List α) (m0 : Mem α) (first : Nat) (st : SkaState α) : Prop :=
  ∃ ys, st.1.Seg first ys ∧ Settled dg xs ys st.2 ∧ m0.SameOff st.1 (InRange first xs.length)

theorem skaPredicate_spec (hd : ∀ x ∈ xs, dg x < 256) (hps : PartsOf dg xs ps) {m0 : Mem α} {first : Nat} :
    PredSpec (skaPredicate dg ps first xs.length) (SkaInv dg xs m0 first) (fun st d => st.2 d = startOf dg xs (d + 1)) (fun st => gap dg xs st.2 256) (· < 256) := by
  constructor
  rintro st b ⟨ys, hs, hset, hoff⟩ hb
  rw [skaPredicate, hps.next b hb]
  by_cases he : st.2 b = startOf dg xs (b + 1)
  · rw [if_pos he]
    exact ⟨false, st, rfl, ⟨ys, hs, hset, hoff⟩, fun _ _ h => h, Nat.le_refl _, fun _ => he, fun h => by cases h⟩
  · rw [if_neg he]
    have hhi := hset.hi b hb
    obtain ⟨st', ys', e, s, t, g, mono, f⟩ := skaBlock_spec hd hb (startOf dg xs (b + 1) - st.2 b) (st.2 b) hs hset (Nat.le_refl _) (by omega)
    rw [e]
    refine ⟨true, st', rfl, ⟨ys', s, t, hoff.trans f⟩, fun d hd256 hcd => ?_, by omega, (fun h => by cases h), fun _ => by omega⟩
    have := t.hi d hd256
    have := mono d
    omega

end

end Verif.Algo
