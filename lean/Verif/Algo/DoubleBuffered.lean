import Mathlib.Tactic.Ring
import Mathlib.Tactic.Positivity
import Verif.Algo.Mem
import Verif.Algo.KeyDesc

/-!
# double_buffered_ska_sort (C41)

`containers/algorithms/sort/double_buffered_ska_sort.cpp`. Source and buffer are ranges of `n` elements, addressed by their
index. A cell that was moved from holds an unspecified value, modelled as `none`; extracting a key
from it is an error of the model (`none` of the outer `Option`), assigning to it is allowed.
-/

namespace Verif.Algo

variable {α : Type}

/-! ## The model -/

/-- The loop of `bool_sort_copy` (`double_buffered_ska_sort.cpp` 92-96). -/
def boolLoop (f : α → Bool) (n : Nat) : Nat → Nat → Nat → Nat → Mem α → Mem α → Option (Mem α × Mem α)
  | 0, _, _, _, cur, nxt => some (cur, nxt)
  | k + 1, i, fp, tp, cur, nxt => do
    let v ← cur i
    let position := if f v then tp else fp
    if position < n then
      boolLoop f n k (i + 1) (if f v then fp else fp + 1) (if f v then tp + 1 else tp) (upd cur i none) (upd nxt position (some v))
    else none

/-- `containers::count_if` over the source. -/
def countLoop (p : α → Bool) (m : Mem α) : Nat → Nat → Nat → Option Nat
  | 0, _, c => some c
  | k + 1, i, c => do
    let v ← m i
    countLoop p m k (i + 1) (if p v then c + 1 else c)

/-- `bool_sort_copy` (`double_buffered_ska_sort.cpp` 82-97). -/
def boolSortCopy (f : α → Bool) (n : Nat) (source buffer : Mem α) : Option (Mem α × Mem α) := do
  let c ← countLoop (fun x => !f x) source n 0 0
  boolLoop f n n 0 0 c source buffer

/-- Byte `index` of a key (`double_buffered_ska_sort.cpp` 109, 124). -/
def digit (f : α → Nat) (index : Nat) (x : α) : Nat := (f x >>> (index * 8)) % 256

/-- The histogram of every byte (`double_buffered_ska_sort.cpp` 103-112); the inner loop over the bytes is one step. -/
def histogram (f : α → Nat) (bytes : Nat) (m : Mem α) : Nat → Nat → (Nat → Nat → Nat) → Option (Nat → Nat → Nat)
  | 0, _, c => some c
  | k + 1, i, c => do
    let v ← m i
    histogram f bytes m k (i + 1) fun index d => if index < bytes ∧ d = digit f index v then c index d + 1 else c index d

/-- `indexed_total += std::exchange(count[i], indexed_total)` for the values of one byte
(`double_buffered_ska_sort.cpp` 115-119). -/
def prefixLoop : Nat → Nat → Nat → (Nat → Nat) → Nat → Nat
  | 0, _, _, c => c
  | k + 1, i, total, c => prefixLoop k (i + 1) (total + c i) (upd c i total)

/-- `sort_segment_copy` (`double_buffered_ska_sort.cpp` 122-128) with the positions of its byte. -/
def scatterLoop (dg : α → Nat) (n : Nat) : Nat → Nat → (Nat → Nat) → Mem α → Mem α → Option (Mem α × Mem α)
  | 0, _, _, cur, nxt => some (cur, nxt)
  | k + 1, i, c, cur, nxt => do
    let v ← cur i
    if c (dg v) < n then scatterLoop dg n k (i + 1) (upd c (dg v) (c (dg v) + 1)) (upd cur i none) (upd nxt (c (dg v)) (some v))
    else none

/-- The loop over the bytes (`double_buffered_ska_sort.cpp` 121-133). -/
def numericLoop (f : α → Nat) (even : Bool) (n : Nat) (counts : Nat → Nat → Nat) : Nat → Nat → Mem α → Mem α → Option (Mem α × Mem α)
  | 0, _, s, b => some (s, b)
  | 1, index, s, b => do
    let (s, b) ← scatterLoop (digit f index) n n 0 (counts index) s b
    if even then none else some (s, b)
  | r + 2, index, s, b => do
    let (s, b) ← scatterLoop (digit f index) n n 0 (counts index) s b
    if even then do
      let (b, s) ← scatterLoop (digit f (index + 1)) n n 0 (counts (index + 1)) b s
      numericLoop f even n counts r (index + 2) s b
    else numericLoop f even n counts (r + 1) (index + 1) s b

/-- `double_buffered_numeric_sort` (`double_buffered_ska_sort.cpp` 100-135). -/
def numericSort (bytes : Nat) (f : α → Nat) (n : Nat) (s b : Mem α) : Option (Mem α × Mem α × Bool) := do
  let c ← histogram f bytes s n 0 fun _ _ => 0
  let (s, b) ← numericLoop f (bytes % 2 == 0) n (fun index => if index < bytes then prefixLoop 256 0 0 (c index) else c index) bytes 0 s b
  some (s, b, bytes % 2 == 1)

/-- The loop over the components from the last to the first, in `double_buffered_range_sort` and
`double_buffered_tuple_sort` (`double_buffered_ska_sort.cpp` 160-171, 183-197). -/
def componentLoop (g : Nat → Mem α → Mem α → Option (Mem α × Mem α × Bool)) : Nat → Mem α → Mem α → Bool → Option (Mem α × Mem α × Bool)
  | 0, s, b, which => some (s, b, which)
  | k + 1, s, b, which =>
    if which then do
      let (b, s, r) ← g k b s
      componentLoop g k s b (!r)
    else do
      let (s, b, r) ← g k s b
      componentLoop g k s b r

/-- `double_buffered_sort_impl` (`double_buffered_ska_sort.cpp` 200-213). Ranges whose size is not part of the type do not
compile. -/
def doubleBufferedImpl (n : Nat) : Desc α → Mem α → Mem α → Option (Mem α × Mem α × Bool)
  | .bool f, s, b => do
    let (s, b) ← boolSortCopy f n s b
    some (s, b, true)
  | .num bytes f, s, b => numericSort bytes f n s b
  | .list none _ _, _, _ => none
  | .list (some k) _ elem, s, b => componentLoop (fun i => doubleBufferedImpl n (elem i)) k s b false
  | .tuple k comp, s, b => componentLoop (fun i => doubleBufferedImpl n (comp i)) k s b false

/-- `double_buffered_ska_sort` (`double_buffered_ska_sort.cpp` 215-229). `tiny`: the size type of the source holds at most 1. -/
def doubleBufferedSort (tiny : Bool) (d : Desc α) (n nb : Nat) (s b : Mem α) : Option (Mem α × Mem α × Bool) :=
  if tiny then some (s, b, false)
  else if n = nb then doubleBufferedImpl n d s b
  else none

/-! ## Stable sorts by several keys -/

theorem lexlt_equiv {lt1 lt2 : α → α → Bool} (x y : α) : equiv (lexlt lt1 lt2) x y = (equiv lt1 x y && equiv lt2 x y) := by
  simp only [equiv, lexlt]
  cases lt1 x y <;> cases lt1 y x <;> cases lt2 x y <;> cases lt2 y x <;> rfl

/-- Sorting stably by the less significant key first and then by the more significant one. -/
theorem IsStableSort.lex {lt1 lt2 : α → α → Bool} (h1 : StrictWeak lt1) {xs ys zs : List α} (hy : IsStableSort lt2 xs ys) (hz : IsStableSort lt1 ys zs) :
    IsStableSort (lexlt lt1 lt2) xs zs where
  sorted := by
    refine List.pairwise_iff_forall_sublist.2 fun {a b} hab => ?_
    have hs := List.pairwise_iff_forall_sublist.1 hz.sorted hab
    rw [lexlt, hs, Bool.false_or, Bool.and_eq_false_iff]
    cases hl : lt1 a b
    · right
      have he : equiv lt1 a b = true := by simp [equiv, hl, hs]
      have hf := hab.filter (equiv lt1 a)
      rw [List.filter_cons_of_pos (equiv_refl h1 a), List.filter_cons_of_pos he, List.filter_nil, hz.stable] at hf
      exact List.pairwise_iff_forall_sublist.1 hy.sorted (hf.trans List.filter_sublist)
    · left; rfl
  perm := hz.perm.trans hy.perm
  stable x := by
    have : equiv (lexlt lt1 lt2) x = fun y => equiv lt1 x y && equiv lt2 x y := funext (lexlt_equiv x)
    rw [this, ← List.filter_filter, ← List.filter_filter]
    have e1 : ∀ l : List α, (l.filter (equiv lt2 x)).filter (equiv lt1 x) = (l.filter (equiv lt1 x)).filter (equiv lt2 x) := by
      intro l; rw [List.filter_filter, List.filter_filter]; congr 1; funext y; exact Bool.and_comm _ _
    rw [e1, hz.stable, ← e1, hy.stable]

/-! ## One pass -/

/-- The number of elements with a smaller digit. -/
def startOf (dg : α → Nat) (xs : List α) (d : Nat) : Nat := (xs.filter fun x => decide (dg x < d)).length

/-- The elements with digits less than the given one, ordered by their digits. -/
def buckets (dg : α → Nat) (xs : List α) : Nat → List α
  | 0 => []
  | d + 1 => buckets dg xs d ++ xs.filter fun x => decide (dg x = d)

theorem filter_lt_succ (dg : α → Nat) (xs : List α) (d : Nat) :
    (xs.filter (fun x => decide (dg x < d)) ++ xs.filter (fun x => decide (dg x = d))).Perm (xs.filter fun x => decide (dg x < d + 1)) := by
  have := List.filter_append_perm (fun x => decide (dg x < d)) (xs.filter fun x => decide (dg x < d + 1))
  rw [List.filter_filter, List.filter_filter] at this
  refine List.Perm.trans (List.Perm.of_eq ?_) this
  congr 1 <;> refine List.filter_congr fun x _ => ?_
  · by_cases h : dg x < d
    · simp [h, show dg x < d + 1 by omega]
    · simp [h]
  · by_cases h : dg x = d
    · simp [h]
    · by_cases h2 : dg x < d
      · simp [h, h2]
      · simp [h, h2, show ¬ dg x < d + 1 by omega]

theorem startOf_succ (dg : α → Nat) (xs : List α) (d : Nat) : startOf dg xs (d + 1) = startOf dg xs d + (xs.filter fun x => decide (dg x = d)).length := by
  have := (filter_lt_succ dg xs d).length_eq
  rw [List.length_append] at this
  exact this.symm

theorem startOf_mono (dg : α → Nat) (xs : List α) {d e : Nat} (h : d ≤ e) : startOf dg xs d ≤ startOf dg xs e := by
  induction h with
  | refl => exact Nat.le_refl _
  | step _ ih => rw [startOf_succ]; omega

theorem buckets_perm (dg : α → Nat) (xs : List α) : ∀ d, (buckets dg xs d).Perm (xs.filter fun x => decide (dg x < d))
  | 0 => by simp [buckets]
  | d + 1 => ((buckets_perm dg xs d).append_right _).trans (filter_lt_succ dg xs d)

theorem buckets_filter (dg : α → Nat) (xs : List α) (e : Nat) : ∀ d, (buckets dg xs d).filter (fun x => decide (dg x = e)) =
    if e < d then xs.filter (fun x => decide (dg x = e)) else []
  | 0 => by simp [buckets]
  | d + 1 => by
    rw [buckets, List.filter_append, buckets_filter dg xs e d, List.filter_filter]
    by_cases he : e < d
    · rw [if_pos he, if_pos (by omega)]
      have : xs.filter (fun a => decide (dg a = e) && decide (dg a = d)) = [] := List.filter_eq_nil_iff.2 fun x _ => by
        simp only [Bool.and_eq_true, decide_eq_true_eq]; omega
      rw [this, List.append_nil]
    · rw [if_neg he, List.nil_append]
      by_cases h2 : e = d
      · subst h2
        rw [if_pos (by omega)]
        refine List.filter_congr fun x _ => ?_
        simp
      · rw [if_neg (by omega), List.filter_eq_nil_iff]
        intro x _
        simp only [Bool.and_eq_true, decide_eq_true_eq]; omega

theorem buckets_stable {dg : α → Nat} {xs : List α} {D : Nat} (h : ∀ x ∈ xs, dg x < D) : IsStableSort (fun x y => decide (dg x < dg y)) xs (buckets dg xs D) where
  sorted := by
    have : ∀ d, (buckets dg xs d).Pairwise fun a b => decide (dg b < dg a) = false := by
      intro d
      induction d with
      | zero => exact List.Pairwise.nil
      | succ d ih =>
        refine List.pairwise_append.2 ⟨ih, ?_, ?_⟩
        · refine List.pairwise_iff_forall_sublist.2 fun {a b} hab => ?_
          have ha := (List.mem_filter.1 (hab.subset (by simp : a ∈ [a, b]))).2
          have hb := (List.mem_filter.1 (hab.subset (by simp : b ∈ [a, b]))).2
          simp only [decide_eq_true_eq, decide_eq_false_iff_not] at *; omega
        · intro a ha b hb
          have ha := (List.mem_filter.1 ((buckets_perm dg xs d).mem_iff.1 ha)).2
          have hb := (List.mem_filter.1 hb).2
          simp only [decide_eq_true_eq, decide_eq_false_iff_not] at *; omega
    exact this D
  perm := (buckets_perm dg xs D).trans (List.Perm.of_eq (List.filter_eq_self.2 fun x hx => by simpa using h x hx))
  stable x := by
    have e : equiv (fun x y => decide (dg x < dg y)) x = fun y => decide (dg y = dg x) := by
      funext y
      rw [Bool.eq_iff_iff, equiv_iff]
      simp only [decide_eq_true_eq, decide_eq_false_iff_not]; omega
    rw [e, buckets_filter]
    split
    · rfl
    · rw [eq_comm, List.filter_eq_nil_iff]
      intro y hy
      have := h y hy
      simp only [decide_eq_true_eq]; omega

theorem buckets_seg {dg : α → Nat} {xs : List α} {m : Mem α} : ∀ D,
    (∀ d, d < D → m.Seg (startOf dg xs d) (xs.filter fun x => decide (dg x = d))) → m.Seg 0 (buckets dg xs D)
  | 0, _ => Mem.seg_nil _ _
  | D + 1, h => by
    rw [buckets, Mem.seg_append]
    refine ⟨buckets_seg D fun d hd => h d (by omega), ?_⟩
    rw [Nat.zero_add, (buckets_perm dg xs D).length_eq]
    exact h D (by omega)

/-- A pass after the elements `pre`, with `rest` to go. -/
structure Scatter (dg : α → Nat) (D : Nat) (xs pre rest : List α) (i : Nat) (c : Nat → Nat) (cur nxt : Mem α) : Prop where
  split : pre ++ rest = xs
  pos : pre.length = i
  here : cur.Seg i rest
  counts : ∀ d, d < D → c d = startOf dg xs d + (pre.filter fun x => decide (dg x = d)).length
  there : ∀ d, d < D → nxt.Seg (startOf dg xs d) (pre.filter fun x => decide (dg x = d))

theorem Scatter.count {dg : α → Nat} {D : Nat} {xs pre rest : List α} {i : Nat} {c : Nat → Nat} {cur nxt : Mem α} (h : Scatter dg D xs pre rest i c cur nxt) (d : Nat) :
    startOf dg xs d + (pre.filter fun x => decide (dg x = d)).length + (rest.filter fun x => decide (dg x = d)).length = startOf dg xs (d + 1) := by
  rw [startOf_succ, ← h.split, List.filter_append, List.length_append]; omega

theorem Scatter.step {dg : α → Nat} {D : Nat} {xs pre rest : List α} {i : Nat} {c : Nat → Nat} {cur nxt : Mem α} {v : α}
    (h : Scatter dg D xs pre (v :: rest) i c cur nxt) (hd : ∀ x ∈ xs, dg x < D) : cur i = some v ∧ c (dg v) < xs.length ∧
      Scatter dg D xs (pre ++ [v]) rest (i + 1) (upd c (dg v) (c (dg v) + 1)) (upd cur i none) (upd nxt (c (dg v)) (some v)) := by
  have hcur := h.here
  rw [Mem.seg_cons] at hcur
  have hv : v ∈ xs := by rw [← h.split]; simp
  have hvD := hd v hv
  have hcount : ∀ d, (pre.filter fun x => decide (dg x = d)).length + (if dg v = d then 1 else 0) ≤ (xs.filter fun x => decide (dg x = d)).length := by
    intro d
    rw [← h.split, List.filter_append, List.length_append, List.filter_cons]
    by_cases hh : dg v = d
    · simp [hh]
    · simp [hh]
  have hpos := h.counts _ hvD
  have hcv := hcount (dg v)
  rw [if_pos rfl] at hcv
  refine ⟨hcur.1, ?_, ?_, ?_, ?_, ?_, ?_⟩
  · have : startOf dg xs (dg v + 1) ≤ xs.length := List.length_filter_le _ _
    rw [startOf_succ] at this; omega
  · simpa using h.split
  · simpa using h.pos
  · intro j hj
    rw [upd_other _ _ (by omega)]
    exact hcur.2 j hj
  · intro d hdD
    rw [List.filter_append, List.length_append]
    by_cases hdv : d = dg v
    · subst hdv
      rw [upd_same, hpos]; simp; omega
    · rw [upd_other _ _ hdv, h.counts d hdD]
      simp [Ne.symm hdv]
  · intro d hdD
    by_cases hdv : d = dg v
    · subst hdv
      rw [List.filter_append, Mem.seg_append]
      constructor
      · intro j hj
        rw [upd_other _ _ (by omega)]
        exact h.there _ hdD j hj
      · simp only [List.filter_cons, decide_true, if_true, List.filter_nil]
        rw [Mem.seg_cons]
        refine ⟨?_, Mem.seg_nil _ _⟩
        rw [← hpos, upd_same]
    · have : (pre ++ [v]).filter (fun x => decide (dg x = d)) = pre.filter (fun x => decide (dg x = d)) := by
        rw [List.filter_append]; simp [Ne.symm hdv]
      rw [this]
      intro j hj
      have hne : startOf dg xs d + j ≠ c (dg v) := by
        have hcd := hcount d
        rcases Nat.lt_or_gt_of_ne hdv with hl | hl
        · have := startOf_mono dg xs (show d + 1 ≤ dg v by omega)
          rw [startOf_succ] at this; omega
        · have := startOf_mono dg xs (show dg v + 1 ≤ d by omega)
          rw [startOf_succ] at this; omega
      rw [upd_other _ _ hne]
      exact h.there d hdD j hj

theorem scatterLoop_spec {dg : α → Nat} {D : Nat} {xs : List α} (hd : ∀ x ∈ xs, dg x < D) :
    ∀ (rest : List α) (i : Nat) (c : Nat → Nat) (cur nxt : Mem α) (pre : List α), Scatter dg D xs pre rest i c cur nxt →
      ∃ cur' nxt', scatterLoop dg xs.length rest.length i c cur nxt = some (cur', nxt') ∧ nxt'.Seg 0 (buckets dg xs D)
  | [], i, c, cur, nxt, pre, h => by
    have := h.split
    rw [List.append_nil] at this; subst this
    exact ⟨cur, nxt, rfl, buckets_seg D h.there⟩
  | v :: rest, i, c, cur, nxt, pre, h => by
    obtain ⟨h0, hlt, h'⟩ := h.step hd
    rw [List.length_cons, scatterLoop, h0]
    simp only [Option.bind_eq_bind, Option.bind_some]
    rw [if_pos hlt]
    exact scatterLoop_spec hd rest (i + 1) _ _ _ _ h'

theorem Scatter.start {dg : α → Nat} {D : Nat} {xs : List α} {c : Nat → Nat} {cur : Mem α} (nxt : Mem α) (hs : cur.Seg 0 xs)
    (hc : ∀ d, d < D → c d = startOf dg xs d) : Scatter dg D xs [] xs 0 c cur nxt :=
  ⟨rfl, rfl, hs, by simpa using hc, fun d _ => Mem.seg_nil _ _⟩

/-- A pass whose positions start at the number of smaller digits is a stable sort by that digit. -/
theorem pass_spec {dg : α → Nat} {D : Nat} {xs : List α} (hd : ∀ x ∈ xs, dg x < D) {c : Nat → Nat} {cur nxt : Mem α} (hs : cur.Seg 0 xs)
    (hc : ∀ d, d < D → c d = startOf dg xs d) :
    ∃ cur' nxt' ys, scatterLoop dg xs.length xs.length 0 c cur nxt = some (cur', nxt') ∧ nxt'.Seg 0 ys ∧ IsStableSort (fun x y => decide (dg x < dg y)) xs ys := by
  obtain ⟨cur', nxt', e, h⟩ := scatterLoop_spec hd xs 0 c cur nxt [] (.start nxt hs hc)
  exact ⟨cur', nxt', _, e, h, buckets_stable hd⟩

theorem startOf_perm {dg : α → Nat} {xs ys : List α} (h : ys.Perm xs) (d : Nat) : startOf dg ys d = startOf dg xs d := (h.filter _).length_eq

/-! ## Booleans -/

theorem countLoop_spec {p : α → Bool} {m : Mem α} : ∀ {xs : List α} {i c : Nat}, m.Seg i xs → countLoop p m xs.length i c = some (c + (xs.filter p).length)
  | [], i, c, _ => rfl
  | x :: xs, i, c, h => by
    rw [Mem.seg_cons] at h
    rw [List.length_cons, countLoop, h.1]
    simp only [Option.bind_eq_bind, Option.bind_some]
    rw [countLoop_spec h.2, List.filter_cons]
    congr 1
    split <;> simp <;> omega

/-- A boolean key as a digit. -/
def boolDigit (f : α → Bool) (x : α) : Nat := if f x then 1 else 0

theorem boolLoop_eq {f : α → Bool} {n : Nat} : ∀ (k i fp tp : Nat) (cur nxt : Mem α) (c : Nat → Nat), c 0 = fp → c 1 = tp →
    boolLoop f n k i fp tp cur nxt = scatterLoop (boolDigit f) n k i c cur nxt
  | 0, _, _, _, _, _, _, _, _ => rfl
  | k + 1, i, fp, tp, cur, nxt, c, h0, h1 => by
    rw [boolLoop, scatterLoop]
    cases cur i with
    | none => rfl
    | some v =>
      simp only [Option.bind_eq_bind, Option.bind_some]
      cases hv : f v
      · have hb : boolDigit f v = 0 := by simp [boolDigit, hv]
        simp only [hb, h0, if_neg Bool.false_ne_true]
        split
        · exact boolLoop_eq k (i + 1) (fp + 1) tp _ _ _ (by rw [upd_same]) (by rw [upd_other _ _ (by omega), h1])
        · rfl
      · have hb : boolDigit f v = 1 := by simp [boolDigit, hv]
        simp only [hb, h1, if_true]
        split
        · exact boolLoop_eq k (i + 1) fp (tp + 1) _ _ _ (by rw [upd_other _ _ (by omega), h0]) (by rw [upd_same])
        · rfl

/-- What every instance of the sort must do: the result is in the range that the returned value
names. -/
def DoubleSorts (lt : α → α → Bool) (xs : List α) (r : Option (Mem α × Mem α × Bool)) : Prop :=
  ∃ s b which ys, r = some (s, b, which) ∧ (if which then b else s).Seg 0 ys ∧ IsStableSort lt xs ys

theorem boolSort_spec {f : α → Bool} {xs : List α} {s b : Mem α} (hs : s.Seg 0 xs) :
    DoubleSorts (Desc.bool f).less xs (doubleBufferedImpl xs.length (.bool f) s b) := by
  have hlt : (fun x y => decide (boolDigit f x < boolDigit f y)) = (Desc.bool f).less := by
    funext x y
    simp only [boolDigit, Desc.less]
    by_cases hx : f x = true <;> by_cases hy : f y = true <;> simp [hx, hy]
  obtain ⟨s', b', ys, e, h1, h2⟩ := pass_spec (dg := boolDigit f) (D := 2) (xs := xs) (c := fun d => startOf (boolDigit f) xs d) (nxt := b) (fun x _ => by simp only [boolDigit]; split <;> omega) hs
    (fun d _ => rfl)
  refine ⟨s', b', true, ys, ?_, h1, hlt ▸ h2⟩
  have hcnt : (0 : Nat) + (xs.filter fun x => !f x).length = startOf (boolDigit f) xs 1 := by
    rw [startOf, Nat.zero_add]
    congr 2
    funext x
    simp only [boolDigit]
    by_cases hx : f x = true <;> simp [hx]
  rw [doubleBufferedImpl, boolSortCopy, countLoop_spec hs, hcnt]
  simp only [Option.bind_eq_bind, Option.bind_some]
  rw [boolLoop_eq _ _ _ _ _ _ _ (by simp [startOf]) rfl, e]
  rfl

/-! ## Numbers -/

theorem histogram_spec {f : α → Nat} {bytes : Nat} {m : Mem α} : ∀ {xs : List α} {i : Nat} {c : Nat → Nat → Nat}, m.Seg i xs →
    ∃ c', histogram f bytes m xs.length i c = some c' ∧ ∀ index, index < bytes → ∀ d, c' index d = c index d + (xs.filter fun x => decide (digit f index x = d)).length
  | [], i, c, _ => ⟨c, rfl, fun _ _ _ => rfl⟩
  | x :: xs, i, c, h => by
    rw [Mem.seg_cons] at h
    rw [List.length_cons, histogram, h.1]
    simp only [Option.bind_eq_bind, Option.bind_some]
    obtain ⟨c', e, hc⟩ := histogram_spec (c := fun index d => if index < bytes ∧ d = digit f index x then c index d + 1 else c index d) h.2
    refine ⟨c', e, fun index hi d => ?_⟩
    rw [hc index hi d, List.filter_cons]
    by_cases hd : d = digit f index x
    · rw [if_pos ⟨hi, hd⟩, if_pos (by simp [hd])]; simp; omega
    · rw [if_neg (fun hh => hd hh.2), if_neg (by simpa using Ne.symm hd)]

theorem prefixLoop_spec {dg : α → Nat} {xs : List α} : ∀ (k i total : Nat) (c : Nat → Nat), total = startOf dg xs i →
    (∀ e, i ≤ e → c e = (xs.filter fun x => decide (dg x = e)).length) → (∀ e, e < i → c e = startOf dg xs e) →
    ∀ d, d < i + k → prefixLoop k i total c d = startOf dg xs d
  | 0, i, total, c, _, _, h3, d, hd => h3 d (by omega)
  | k + 1, i, total, c, h1, h2, h3, d, hd => by
    rw [prefixLoop]
    refine prefixLoop_spec k (i + 1) _ _ ?_ ?_ ?_ d (by omega)
    · rw [startOf_succ, h1, h2 i (Nat.le_refl _)]
    · intro e he
      rw [upd_other _ _ (by omega), h2 e (by omega)]
    · intro e he
      by_cases hei : e = i
      · subst hei; rw [upd_same, h1]
      · rw [upd_other _ _ hei, h3 e (by omega)]

theorem digit_lt (f : α → Nat) (index : Nat) (x : α) : digit f index x < 256 := Nat.mod_lt _ (by omega)

/-- The first `k` bytes of a key. -/
def lowLess (f : α → Nat) (k : Nat) (x y : α) : Bool := decide (f x % 256 ^ k < f y % 256 ^ k)

theorem low_succ (f : α → Nat) (k : Nat) (x : α) : f x % 256 ^ (k + 1) = digit f k x * 256 ^ k + f x % 256 ^ k := by
  rw [digit, Nat.shiftRight_eq_div_pow, show 2 ^ (k * 8) = 256 ^ k by rw [Nat.mul_comm, pow_mul]; norm_num, pow_succ, Nat.mod_mul, Nat.add_comm, Nat.mul_comm]

theorem lowLess_succ (f : α → Nat) (k : Nat) : lowLess f (k + 1) = lexlt (fun x y => decide (digit f k x < digit f k y)) (lowLess f k) := by
  funext x y
  have hp : 0 < 256 ^ k := by positivity
  have hx := Nat.mod_lt (f x) hp
  have hy := Nat.mod_lt (f y) hp
  rw [Bool.eq_iff_iff]
  simp only [lowLess, lexlt, Bool.or_eq_true, Bool.and_eq_true, Bool.not_eq_true', decide_eq_true_eq, decide_eq_false_iff_not, low_succ]
  generalize digit f k x = a at *
  generalize digit f k y = b at *
  generalize f x % 256 ^ k = u at *
  generalize f y % 256 ^ k = v at *
  generalize 256 ^ k = p at *
  rcases Nat.lt_trichotomy a b with h | h | h
  · have : (a + 1) * p ≤ b * p := Nat.mul_le_mul_right p h
    rw [Nat.add_mul, Nat.one_mul] at this
    omega
  · subst h; omega
  · have : (b + 1) * p ≤ a * p := Nat.mul_le_mul_right p h
    rw [Nat.add_mul, Nat.one_mul] at this
    omega

theorem decideLt_strictWeak (g : α → Nat) : StrictWeak fun x y => decide (g x < g y) :=
  ⟨fun {x y} h => by simp only [decide_eq_true_eq, decide_eq_false_iff_not] at *; omega, fun {x y z} h1 h2 => by simp only [decide_eq_false_iff_not] at *; omega⟩

/-- One more byte. -/
theorem byte_pass {f : α → Nat} {xs ys : List α} {c : Nat → Nat → Nat} {k : Nat} (hc : ∀ d, d < 256 → c k d = startOf (digit f k) xs d)
    (hy : IsStableSort (lowLess f k) xs ys) {cur nxt : Mem α} (hs : cur.Seg 0 ys) :
    ∃ cur' nxt' zs, scatterLoop (digit f k) xs.length xs.length 0 (c k) cur nxt = some (cur', nxt') ∧ nxt'.Seg 0 zs ∧ IsStableSort (lowLess f (k + 1)) xs zs := by
  obtain ⟨cur', nxt', zs, e, h1, h2⟩ := pass_spec (dg := digit f k) (D := 256) (xs := ys) (c := c k) (nxt := nxt) (fun x _ => digit_lt f k x) hs
    (fun d hd => by rw [hc d hd, startOf_perm hy.perm])
  rw [hy.perm.length_eq] at e
  exact ⟨cur', nxt', zs, e, h1, lowLess_succ f k ▸ hy.lex (decideLt_strictWeak _) h2⟩

theorem numericLoop_even {f : α → Nat} {xs : List α} {c : Nat → Nat → Nat} {bytes : Nat} (hc : ∀ k, k < bytes → ∀ d, d < 256 → c k d = startOf (digit f k) xs d) :
    ∀ (q k : Nat) {ys : List α} {s b : Mem α}, k + 2 * q = bytes → IsStableSort (lowLess f k) xs ys → s.Seg 0 ys →
      ∃ s' b' zs, numericLoop f true xs.length c (2 * q) k s b = some (s', b') ∧ s'.Seg 0 zs ∧ IsStableSort (lowLess f bytes) xs zs
  | 0, k, ys, s, b, hk, hy, hs => by
    obtain rfl : k = bytes := by omega
    exact ⟨s, b, ys, rfl, hs, hy⟩
  | q + 1, k, ys, s, b, hk, hy, hs => by
    obtain ⟨s1, b1, ys1, e1, h1, hy1⟩ := byte_pass (nxt := b) (hc k (by omega)) hy hs
    obtain ⟨b2, s2, ys2, e2, h2, hy2⟩ := byte_pass (nxt := s1) (hc (k + 1) (by omega)) hy1 h1
    obtain ⟨s', b', zs, e, h, hz⟩ := numericLoop_even hc q (k + 2) (b := b2) (by omega) hy2 h2
    refine ⟨s', b', zs, ?_, h, hz⟩
    rw [show 2 * (q + 1) = 2 * q + 2 by omega, numericLoop]
    simp only [e1, Option.bind_eq_bind, Option.bind_some, if_true, e2]
    exact e

theorem lowLess_zero (f : α → Nat) (xs : List α) : IsStableSort (lowLess f 0) xs xs := by
  have h0 : lowLess f 0 = fun _ _ => false := by funext x y; simp [lowLess, Nat.mod_one]
  rw [h0]
  refine IsStableSort.refl ?_
  rw [Sorted]
  exact List.pairwise_of_forall (fun _ _ => rfl)

theorem lowLess_all {f : α → Nat} {bytes : Nat} (h : ∀ x, f x < 256 ^ bytes) : lowLess f bytes = (Desc.num bytes f).less := by
  funext x y
  rw [lowLess, Nat.mod_eq_of_lt (h x), Nat.mod_eq_of_lt (h y)]; rfl

theorem numericSort_spec {bytes : Nat} {f : α → Nat} (hb : bytes = 1 ∨ bytes % 2 = 0) (hf : ∀ x, f x < 256 ^ bytes) {xs : List α} {s b : Mem α} (hs : s.Seg 0 xs) :
    DoubleSorts (Desc.num bytes f).less xs (numericSort bytes f xs.length s b) := by
  obtain ⟨c', e, hc⟩ := histogram_spec (f := f) (bytes := bytes) (c := fun _ _ => 0) hs
  have hcc : ∀ k, k < bytes → ∀ d, d < 256 → (fun index => if index < bytes then prefixLoop 256 0 0 (c' index) else c' index) k d = startOf (digit f k) xs d := by
    intro k hk d hd
    dsimp only
    rw [if_pos hk]
    exact prefixLoop_spec 256 0 0 _ (by simp [startOf]) (fun e _ => by rw [hc k hk e]; omega) (fun e he => by omega) d (by omega)
  rw [numericSort, e]
  simp only [Option.bind_eq_bind, Option.bind_some]
  rcases hb with rfl | hb
  · obtain ⟨s1, b1, ys1, e1, h1, hy1⟩ := byte_pass (c := fun index => if index < 1 then prefixLoop 256 0 0 (c' index) else c' index) (nxt := b) (hcc 0 (by omega)) (lowLess_zero f xs) hs
    refine ⟨s1, b1, true, ys1, ?_, h1, lowLess_all hf ▸ hy1⟩
    rw [numericLoop]
    simp only [e1, Option.bind_eq_bind, Option.bind_some]
    rfl
  · obtain ⟨s', b', zs, e2, h2, hz⟩ := numericLoop_even hcc (bytes / 2) 0 (b := b) (by omega) (lowLess_zero f xs) hs
    refine ⟨s', b', false, zs, ?_, h2, lowLess_all hf ▸ hz⟩
    rw [show 2 * (bytes / 2) = bytes by omega] at e2
    rw [hb]
    simp only [beq_self_eq_true, e2, Option.bind_some]
    rfl

/-! ## Tuples and ranges -/

theorem componentLoop_spec {g : Nat → Mem α → Mem α → Option (Mem α × Mem α × Bool)} {lt : Nat → α → α → Bool} {n : Nat} (hlt : ∀ i, StrictWeak (lt i))
    (hg : ∀ i {xs : List α} {s b : Mem α}, xs.length = n → s.Seg 0 xs → DoubleSorts (lt i) xs (g i s b)) {xs : List α} (hn : xs.length = n) {size : Nat} :
    ∀ (k : Nat) {ys : List α} {s b : Mem α} {which : Bool}, k ≤ size → IsStableSort (lexUpto lt (size - k) k) xs ys → (if which then b else s).Seg 0 ys →
      DoubleSorts (lexUpto lt size 0) xs (componentLoop g k s b which)
  | 0, ys, s, b, which, hk, hy, hs => ⟨s, b, which, ys, rfl, hs, hy⟩
  | k + 1, ys, s, b, which, hk, hy, hs => by
    have hstep : ∀ zs, IsStableSort (lt k) ys zs → IsStableSort (lexUpto lt (size - k) k) xs zs := by
      intro zs hz
      rw [show size - k = (size - (k + 1)) + 1 by omega, lexUpto]
      exact hy.lex (hlt k) hz
    have hyl : ys.length = n := hy.perm.length_eq.trans hn
    rw [componentLoop]
    cases which with
    | false =>
      rw [if_neg Bool.false_ne_true] at hs ⊢
      obtain ⟨s', b', w, zs, e, h1, h2⟩ := hg k (b := b) hyl hs
      rw [e]
      exact componentLoop_spec hlt hg hn k (by omega) (hstep zs h2) h1
    | true =>
      rw [if_pos rfl] at hs ⊢
      obtain ⟨b', s', w, zs, e, h1, h2⟩ := hg k (b := s) hyl hs
      rw [e]
      refine componentLoop_spec hlt hg hn k (by omega) (hstep zs h2) ?_
      cases w <;> exact h1

theorem lexUpto_congr {c c' : Nat → α → α → Bool} : ∀ (n i : Nat), (∀ j, i ≤ j → j < i + n → c j = c' j) → lexUpto c n i = lexUpto c' n i
  | 0, _, _ => rfl
  | n + 1, i, h => by rw [lexUpto, lexUpto, h i (Nat.le_refl _) (by omega), lexUpto_congr n (i + 1) fun j h1 h2 => h j (by omega) (by omega)]

/-- Ranges whose type does not give their size are not supported. -/
def Desc.Sized : Desc α → Prop
  | .bool _ => True
  | .num _ _ => True
  | .list fixed _ elem => fixed ≠ none ∧ ∀ i, (elem i).Sized
  | .tuple _ comp => ∀ i, (comp i).Sized

theorem doubleBufferedImpl_spec : ∀ (d : Desc α), d.WF → d.Sized → ∀ {xs : List α} {s b : Mem α}, s.Seg 0 xs →
    DoubleSorts d.less xs (doubleBufferedImpl xs.length d s b)
  | .bool f, _, _, xs, s, b, hs => boolSort_spec hs
  | .num bytes f, hw, _, xs, s, b, hs => numericSort_spec hw.1 hw.2 hs
  | .list none len elem, hw, hz, xs, s, b, hs => absurd rfl hz.1
  | .list (some k) len elem, hw, hz, xs, s, b, hs => by
    have hlen : ∀ x, len x = k := hw.1 k rfl
    have : (Desc.list (some k) len elem).less = lexUpto (fun i => (elem i).less) k 0 := by
      funext x y
      rw [Desc.less_list (n := k) (by rw [hlen, hlen]; omega)]
      have hcell : ∀ j, j < k → cellLess len ((elem j).less) j = (elem j).less := by
        intro j hj
        funext x y
        rw [cellLess, if_pos (by rw [hlen, hlen]; omega)]
      rw [lexUpto_congr (c' := fun i => (elem i).less) k 0 fun j _ hj => hcell j (by omega)]
    rw [this]
    refine componentLoop_spec (fun i => (elem i).less_strictWeak) (n := xs.length) (fun i ys s b hl hs => ?_) rfl k (ys := xs) (Nat.le_refl _) ?_ hs
    · rw [← hl]; exact doubleBufferedImpl_spec (elem i) (hw.2 i) (hz.2 i) hs
    · rw [Nat.sub_self]; exact IsStableSort.refl (List.pairwise_of_forall (fun _ _ => rfl))
  | .tuple k comp, hw, hz, xs, s, b, hs => by
    refine componentLoop_spec (fun i => (comp i).less_strictWeak) (n := xs.length) (fun i ys s b hl hs => ?_) rfl k (ys := xs) (Nat.le_refl _) ?_ hs
    · rw [← hl]; exact doubleBufferedImpl_spec (comp i) (hw i) (hz i) hs
    · rw [Nat.sub_self]; exact IsStableSort.refl (List.pairwise_of_forall (fun _ _ => rfl))

/-- `double_buffered_ska_sort` sorts stably by any key made of booleans, numbers, tuples and ranges of
known size, and the value it returns tells which range holds the result. -/
theorem C41_double_buffered_ska_sort {d : Desc α} (hw : d.WF) (hz : d.Sized) {xs : List α} {s b : Mem α} (hs : s.Seg 0 xs) {tiny : Bool} (ht : tiny = true → xs.length ≤ 1) :
    DoubleSorts d.less xs (doubleBufferedSort tiny d xs.length xs.length s b) := by
  rw [doubleBufferedSort]
  cases tiny with
  | true =>
    refine ⟨s, b, false, xs, rfl, hs, IsStableSort.refl ?_⟩
    match xs, ht rfl with
    | [], _ => exact List.Pairwise.nil
    | [x], _ => exact List.pairwise_singleton _ _
  | false =>
    rw [if_neg Bool.false_ne_true, if_pos rfl]
    exact doubleBufferedImpl_spec d hw hz hs

/-- The result is determined by the input: it is the one stable sort. -/
theorem C41_unique {d : Desc α} (hw : d.WF) (hz : d.Sized) {xs ws : List α} {s b : Mem α} (hs : s.Seg 0 xs) (hws : IsStableSort d.less xs ws) :
    ∃ s' b' which, doubleBufferedSort false d xs.length xs.length s b = some (s', b', which) ∧ (if which then b' else s').Seg 0 ws := by
  obtain ⟨s', b', which, ys, e, h1, h2⟩ := C41_double_buffered_ska_sort hw hz (b := b) hs (tiny := false) (by simp)
  exact ⟨s', b', which, e, (h2.unique d.less_strictWeak hws) ▸ h1⟩

/-! ## Examples -/

/-- Pairs of a 2 byte number and a boolean, sorted by the tuple of both. -/
def exDesc : Desc (Nat × Bool) := .tuple 2 fun i => if i = 0 then .num 2 (fun p => p.1 % 65536) else .bool (fun p => p.2)

example : exDesc.WF ∧ exDesc.Sized := by
  constructor
  · intro i
    dsimp only [exDesc]
    split
    · exact ⟨.inr rfl, fun x => Nat.mod_lt _ (by norm_num)⟩
    · trivial
  · intro i
    dsimp only [exDesc]
    split <;> trivial

example : (doubleBufferedSort false exDesc 4 4 (fun a => [(700, true), (300, true), (700, false), (2, true)][a]?) (fun _ => none)).map
    (fun r => (r.2.2, (List.range 4).map (if r.2.2 then r.2.1 else r.1))) = some (true, [some (2, true), some (300, true), some (700, false), some (700, true)]) := by
  decide +kernel

end Verif.Algo
