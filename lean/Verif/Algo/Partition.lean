import Verif.Algo.Search

/-!
# Partitioning (C37)

`containers/algorithms/partition.cpp`. Positions of loops are addresses; "fuel" bounds the number of
iterations and running out of it is reported as `none`, so the theorems also say that the loops end.
-/

namespace Verif.Algo

variable {α : Type}

/-! ## The model -/

/-- `advance_last`, with `last` being `n` elements after `first` (`partition.cpp` 71-78). -/
def advanceLast (m : Mem α) (p : α → Bool) (first : Nat) : Nat → Option Nat
  | 0 => some first
  | n + 1 => do
    let v ← m (first + n)
    if p v then some (first + n) else advanceLast m p first n

/-- The loop over ranges that can be walked from both ends (`partition.cpp` 81-88). -/
def partitionLoop (p : α → Bool) : Nat → Mem α → Nat → Nat → Option (Mem α × Nat)
  | 0, _, _, _ => none
  | f + 1, m, first, last =>
    if first = last then some (m, first)
    else do
      let m ← m.swapAt first last
      let first ← findIfNot m p first last
      if first = last then some (m, first)
      else do
        let last ← advanceLast m p first (last - first)
        partitionLoop p f m first last

/-- The loop over ranges that can only be walked forwards; `it` is `n` elements before the end
(`partition.cpp` 93-98). -/
def partitionForward (p : α → Bool) : Nat → Mem α → Nat → Nat → Option (Mem α × Nat)
  | 0, m, first, _ => some (m, first)
  | n + 1, m, first, it => do
    let v ← m it
    if p v then do
      let m ← m.swapAt it first
      partitionForward p n m (first + 1) (it + 1)
    else partitionForward p n m first (it + 1)

/-- `partition` (`partition.cpp` 62-101); `bidir` says whether `last` can be decremented. -/
def partition (bidir : Bool) (m : Mem α) (p : α → Bool) (first last : Nat) : Option (Mem α × Nat) := do
  let first ← findIfNot m p first last
  if bidir then do
    let last ← advanceLast m p first (last - first)
    partitionLoop p (last - first + 1) m first last
  else if first = last then some (m, first)
  else partitionForward p (last - first - 1) m first (first + 1)

/-- The loop of `iterator_partition` (`partition.cpp` 117-132). The pivot is read in every iteration. -/
def iteratorPartitionLoop (cmp : α → α → Bool) : Nat → Mem α → Nat → Nat → Nat → Option (Mem α × Nat)
  | 0, _, _, _, _ => none
  | f + 1, m, first, middle, last => do
    let v ← m middle
    let first ← findIfNot m (fun x => cmp x v) first middle
    if first = last then some (m, first)
    else do
      let l ← findLastIf m (fun x => cmp x v) (first + 1) last
      if l = last then some (m, first)
      else do
        let m ← m.swapAt first l
        iteratorPartitionLoop cmp f m (first + 1) (if first = middle then l else middle) l

/-- `iterator_partition` (`partition.cpp` 112-135). The assertion of line 115 is the first condition.
On an empty range nothing is read. -/
def iteratorPartition (cmp : α → α → Bool) (m : Mem α) (first middle last : Nat) : Option (Mem α × Nat) :=
  if first ≠ last ∧ middle = last then none
  else if first = last then (if middle = first then some (m, first) else none)
  else iteratorPartitionLoop cmp (last - first + 1) m first middle last

/-! ## Searches inside a range -/

theorem Mem.Seg.get {m : Mem α} {first : Nat} {xs : List α} (h : m.Seg first xs) {i : Nat} (hi : i < xs.length) : m (first + i) = xs[i]? := by
  rw [h i hi, List.getElem?_eq_getElem hi]

theorem findIfLoop_sub {m : Mem α} {p : α → Bool} {first : Nat} {xs : List α} (h : m.Seg first xs) : ∀ n a, a + n ≤ xs.length →
    ∃ k, findIfLoop m p n (first + a) = some (first + k) ∧ a ≤ k ∧ k ≤ a + n ∧ (∀ i x, a ≤ i → i < k → xs[i]? = some x → p x = false) ∧
      (k < a + n → ∀ x, xs[k]? = some x → p x = true)
  | 0, a, _ => ⟨a, rfl, by omega, by omega, fun i x h1 h2 => by omega, fun h => by omega⟩
  | n + 1, a, ha => by
    rw [findIfLoop, h a (by omega)]
    simp only [Option.bind_eq_bind, Option.bind_some]
    have hget : xs[a]? = some (xs[a]'(by omega)) := List.getElem?_eq_getElem _
    cases hp : p (xs[a]'(by omega)) with
    | true =>
      refine ⟨a, if_pos rfl, by omega, by omega, fun i x h1 h2 => by omega, fun _ x hx => ?_⟩
      rw [hget] at hx; injection hx with hx; rw [← hx]; exact hp
    | false =>
      obtain ⟨k, e, h1, h2, h3, h4⟩ := findIfLoop_sub (p := p) h n (a + 1) (by omega)
      refine ⟨k, by rw [if_neg (by simp)]; exact e, by omega, by omega, fun i x hi1 hi2 hx => ?_, fun hk => h4 (by omega)⟩
      by_cases hia : i = a
      · subst hia
        rw [hget] at hx; injection hx with hx; rw [← hx]; exact hp
      · exact h3 i x (by omega) hi2 hx

theorem findIfNot_sub {m : Mem α} {p : α → Bool} {first : Nat} {xs : List α} (h : m.Seg first xs) {a b : Nat} (hab : a ≤ b) (hb : b ≤ xs.length) :
    ∃ k, findIfNot m p (first + a) (first + b) = some (first + k) ∧ a ≤ k ∧ k ≤ b ∧ (∀ i x, a ≤ i → i < k → xs[i]? = some x → p x = true) ∧
      (k < b → ∀ x, xs[k]? = some x → p x = false) := by
  obtain ⟨k, e, h1, h2, h3, h4⟩ := findIfLoop_sub (p := fun x => !p x) h (b - a) a (by omega)
  refine ⟨k, ?_, h1, by omega, fun i x hi1 hi2 hx => by simpa using h3 i x hi1 hi2 hx, fun hk x hx => by simpa using h4 (by omega) x hx⟩
  rw [findIfNot, findIf, if_pos (by omega), show first + b - (first + a) = b - a by omega, e]

theorem findLastIf_sub {m : Mem α} {p : α → Bool} {first : Nat} {xs : List α} (h : m.Seg first xs) {a b : Nat} (hab : a ≤ b) (hb : b ≤ xs.length) :
    (∃ k, findLastIf m p (first + a) (first + b) = some (first + k) ∧ a ≤ k ∧ k < b ∧ (∀ x, xs[k]? = some x → p x = true) ∧
      ∀ i x, k < i → i < b → xs[i]? = some x → p x = false) ∨
    (findLastIf m p (first + a) (first + b) = some (first + b) ∧ ∀ i x, a ≤ i → i < b → xs[i]? = some x → p x = false) := by
  rw [findLastIf, if_pos (by omega), show first + b - (first + a) = b - a by omega]
  have key : ∀ n, a + n ≤ b → (∃ k, findLastIfLoop m p (first + a) (first + b) n = some (first + k) ∧ a ≤ k ∧ k < a + n ∧ (∀ x, xs[k]? = some x → p x = true) ∧
      ∀ i x, k < i → i < a + n → xs[i]? = some x → p x = false) ∨
    (findLastIfLoop m p (first + a) (first + b) n = some (first + b) ∧ ∀ i x, a ≤ i → i < a + n → xs[i]? = some x → p x = false) := by
    intro n
    induction n with
    | zero => exact fun _ => .inr ⟨rfl, fun i x h1 h2 => by omega⟩
    | succ n ih =>
      intro hn
      rw [findLastIfLoop, show first + a + n = first + (a + n) by omega, h (a + n) (by omega)]
      simp only [Option.bind_eq_bind, Option.bind_some]
      have hget : xs[a + n]? = some (xs[a + n]'(by omega)) := List.getElem?_eq_getElem _
      cases hp : p (xs[a + n]'(by omega)) with
      | true =>
        refine .inl ⟨a + n, if_pos rfl, by omega, by omega, fun x hx => ?_, fun i x h1 h2 => by omega⟩
        rw [hget] at hx; injection hx with hx; rw [← hx]; exact hp
      | false =>
        have hthis : ∀ i x, i = a + n → xs[i]? = some x → p x = false := by
          rintro i x rfl hx
          rw [hget] at hx; injection hx with hx; rw [← hx]; exact hp
        rw [if_neg (by simp)]
        rcases ih (by omega) with ⟨k, e, h1, h2, h3, h4⟩ | ⟨e, h1⟩
        · refine .inl ⟨k, e, h1, by omega, h3, fun i x hi1 hi2 hx => ?_⟩
          by_cases hia : i = a + n
          · exact hthis i x hia hx
          · exact h4 i x hi1 (by omega) hx
        · refine .inr ⟨e, fun i x hi1 hi2 hx => ?_⟩
          by_cases hia : i = a + n
          · exact hthis i x hia hx
          · exact h1 i x hi1 (by omega) hx
  have := key (b - a) (by omega)
  rwa [show a + (b - a) = b by omega] at this

theorem advanceLast_sub {m : Mem α} {p : α → Bool} {first : Nat} {xs : List α} (h : m.Seg first xs) (a : Nat) : ∀ n, a + n ≤ xs.length →
    ∃ k, advanceLast m p (first + a) n = some (first + k) ∧ a ≤ k ∧ (k < a + n ∨ k = a) ∧ (∀ i x, k < i → i < a + n → xs[i]? = some x → p x = false) ∧
      (k ≠ a → ∀ x, xs[k]? = some x → p x = true)
  | 0, _ => ⟨a, rfl, by omega, .inr rfl, fun i x h1 h2 => by omega, fun h => absurd rfl h⟩
  | n + 1, hn => by
    rw [advanceLast, show first + a + n = first + (a + n) by omega, h (a + n) (by omega)]
    simp only [Option.bind_eq_bind, Option.bind_some]
    have hget : xs[a + n]? = some (xs[a + n]'(by omega)) := List.getElem?_eq_getElem _
    cases hp : p (xs[a + n]'(by omega)) with
    | true =>
      refine ⟨a + n, if_pos rfl, by omega, by omega, fun i x h1 h2 => by omega, fun _ x hx => ?_⟩
      rw [hget] at hx; injection hx with hx; rw [← hx]; exact hp
    | false =>
      obtain ⟨k, e, h1, h2, h3, h4⟩ := advanceLast_sub (p := p) h a n (by omega)
      refine ⟨k, by rw [if_neg (by simp)]; exact e, h1, by omega, fun i x hi1 hi2 hx => ?_, h4⟩
      by_cases hia : i = a + n
      · subst hia
        rw [hget] at hx; injection hx with hx; rw [← hx]; exact hp
      · exact h3 i x hi1 (by omega) hx

/-! ## Swapping -/

/-- Two elements exchanged. -/
def swapped (xs : List α) (i j : Nat) : List α :=
  match xs[i]?, xs[j]? with
  | some a, some b => (xs.set i b).set j a
  | _, _ => xs

theorem swapped_perm {xs : List α} {i j : Nat} : (swapped xs i j).Perm xs := by
  unfold swapped
  by_cases hi : i < xs.length
  · by_cases hj : j < xs.length
    · rw [List.getElem?_eq_getElem hi, List.getElem?_eq_getElem hj]
      exact List.set_set_perm hi hj
    · rw [List.getElem?_eq_none (by omega : xs.length ≤ j)]
      split <;> simp_all
  · rw [List.getElem?_eq_none (by omega : xs.length ≤ i)]

theorem swapped_length {xs : List α} {i j : Nat} : (swapped xs i j).length = xs.length := swapped_perm.length_eq

theorem swapped_get {xs : List α} {i j : Nat} (hi : i < xs.length) (hj : j < xs.length) (k : Nat) :
    (swapped xs i j)[k]? = if k = j then xs[i]? else if k = i then xs[j]? else xs[k]? := by
  unfold swapped
  rw [List.getElem?_eq_getElem hi, List.getElem?_eq_getElem hj]
  simp only [List.getElem?_set, List.length_set]
  by_cases h1 : k = j
  · subst h1; simp [hj]
  · rw [if_neg (Ne.symm h1), if_neg h1]
    by_cases h2 : k = i
    · subst h2; simp [hi]
    · rw [if_neg (Ne.symm h2), if_neg h2]

theorem seg_of_get {m : Mem α} {first : Nat} {xs : List α} (h : ∀ i, i < xs.length → m (first + i) = xs[i]?) : m.Seg first xs :=
  fun i hi => by rw [h i hi, List.getElem?_eq_getElem hi]

/-- The cells of a range of `n` elements. -/
abbrev InRange (first n : Nat) : Nat → Prop := fun x => first ≤ x ∧ x < first + n

theorem swapAt_spec {m : Mem α} {first : Nat} {xs : List α} (h : m.Seg first xs) {i j : Nat} (hi : i < xs.length) (hj : j < xs.length) :
    ∃ m', m.swapAt (first + i) (first + j) = some m' ∧ m'.Seg first (swapped xs i j) ∧ m.SameOff m' (InRange first xs.length) := by
  refine ⟨upd (upd m (first + i) (some xs[j])) (first + j) (some xs[i]), by simp only [Mem.swapAt, h i hi, h j hj], ?_, ?_⟩
  · refine seg_of_get fun k hk => ?_
    rw [swapped_length] at hk
    rw [swapped_get hi hj]
    by_cases h1 : k = j
    · subst h1; simp [List.getElem?_eq_getElem hi]
    · rw [if_neg h1, upd_other _ _ (by omega)]
      by_cases h2 : k = i
      · subst h2; simp [List.getElem?_eq_getElem hj]
      · rw [if_neg h2, upd_other _ _ (by omega), h.get hk]
  · intro x hx
    rw [upd_other _ _ (by omega), upd_other _ _ (by omega)]

/-! ## partition -/

/-- The result of a partition: `k` elements that satisfy the predicate, then the others. -/
structure IsPartition (p : α → Bool) (xs ys : List α) (k : Nat) : Prop where
  perm : ys.Perm xs
  le : k ≤ ys.length
  before : ∀ i x, i < k → ys[i]? = some x → p x = true
  after : ∀ i x, k ≤ i → ys[i]? = some x → p x = false

theorem IsPartition.take_drop {p : α → Bool} {xs ys : List α} {k : Nat} (h : IsPartition p xs ys k) :
    (∀ x ∈ ys.take k, p x = true) ∧ ∀ x ∈ ys.drop k, p x = false := by
  constructor
  · intro x hx
    obtain ⟨i, hi, rfl⟩ := List.mem_iff_getElem.1 hx
    have hi' := hi
    rw [List.length_take] at hi'
    rw [List.getElem_take]
    exact h.before i _ (by omega) (List.getElem?_eq_getElem _)
  · intro x hx
    obtain ⟨i, hi, rfl⟩ := List.mem_iff_getElem.1 hx
    rw [List.getElem_drop]
    exact h.after (k + i) _ (by omega) (List.getElem?_eq_getElem _)

theorem partitionLoop_spec {p : α → Bool} {first : Nat} : ∀ (f : Nat) {m : Mem α} {xs : List α} {a b : Nat}, m.Seg first xs → b - a < f → a ≤ b → b ≤ xs.length →
    (∀ i x, i < a → xs[i]? = some x → p x = true) → (∀ i x, b < i → xs[i]? = some x → p x = false) →
    (a = b → ∀ x, xs[b]? = some x → p x = false) → (a < b → b < xs.length ∧ (∀ x, xs[a]? = some x → p x = false) ∧ ∀ x, xs[b]? = some x → p x = true) →
    ∃ m' ys k, partitionLoop p f m (first + a) (first + b) = some (m', first + k) ∧ m'.Seg first ys ∧ IsPartition p xs ys k ∧
      m.SameOff m' (InRange first xs.length)
  | 0, m, xs, a, b, _, hf, _, _, _, _, _, _ => by omega
  | f + 1, m, xs, a, b, hs, hf, hab, hb, hbefore, hafter, heq, hlt => by
    rw [partitionLoop]
    by_cases he : a = b
    · rw [if_pos (by omega)]
      refine ⟨m, xs, a, rfl, hs, ⟨List.Perm.refl _, by omega, hbefore, fun i x hi hx => ?_⟩, fun _ _ => rfl⟩
      by_cases hib : i = b
      · subst hib; exact heq he x hx
      · exact hafter i x (by omega) hx
    · rw [if_neg (by omega)]
      obtain ⟨hbn, hpa, hpb⟩ := hlt (by omega)
      obtain ⟨m1, e1, s1, f1⟩ := swapAt_spec hs (i := a) (j := b) (by omega) hbn
      simp only [e1, Option.bind_eq_bind, Option.bind_some]
      have hlen := swapped_length (xs := xs) (i := a) (j := b)
      have hget := swapped_get (xs := xs) (i := a) (j := b) (by omega) hbn
      obtain ⟨k, e2, hk1, hk2, hk3, hk4⟩ := findIfNot_sub (p := p) s1 hab (by omega)
      simp only [e2, Option.bind_some]
      have hka : a < k := by
        rcases Nat.lt_or_ge a k with h | h
        · exact h
        · have hk : k = a := by omega
          have := hk4 (by omega) (xs[b]'hbn) (by rw [hget, hk, if_neg he, if_pos rfl, List.getElem?_eq_getElem hbn])
          rw [hpb _ (List.getElem?_eq_getElem hbn)] at this; cases this
      have hbefore' : ∀ i x, i < k → (swapped xs a b)[i]? = some x → p x = true := by
        intro i x hi hx
        by_cases hia : i < a
        · rw [hget, if_neg (by omega), if_neg (by omega)] at hx
          exact hbefore i x hia hx
        · exact hk3 i x (by omega) hi hx
      have hlast : ∀ x, (swapped xs a b)[b]? = some x → p x = false := by
        intro x hx
        rw [hget, if_pos rfl] at hx
        exact hpa x hx
      have hafter' : ∀ i x, b < i → (swapped xs a b)[i]? = some x → p x = false := by
        intro i x hi hx
        rw [hget, if_neg (by omega), if_neg (by omega)] at hx
        exact hafter i x hi hx
      by_cases hkb : k = b
      · rw [if_pos (by omega)]
        refine ⟨m1, swapped xs a b, k, rfl, s1, ⟨swapped_perm, by omega, hbefore', fun i x hi hx => ?_⟩, f1⟩
        by_cases hib : i = b
        · subst hib; exact hlast x hx
        · exact hafter' i x (by omega) hx
      · rw [if_neg (by omega), show first + b - (first + k) = b - k by omega]
        obtain ⟨l, e3, hl1, hl2, hl3, hl4⟩ := advanceLast_sub (p := p) s1 k (b - k) (by omega)
        simp only [e3, Option.bind_some]
        have hnotk := hk4 (by omega)
        obtain ⟨m', ys, r, e4, s4, ip, f4⟩ := partitionLoop_spec f (p := p) s1 (a := k) (b := l) (by omega) hl1 (by omega) hbefore'
          (fun i x hi hx => by
            by_cases h1 : i < b
            · exact hl3 i x hi (by omega) hx
            · by_cases h2 : i = b
              · subst h2; exact hlast x hx
              · exact hafter' i x (by omega) hx)
          (fun h x hx => by subst h; exact hnotk x hx)
          (fun h => ⟨by omega, hnotk, hl4 (by omega)⟩)
        rw [hlen] at f4
        exact ⟨m', ys, r, e4, s4, ⟨ip.perm.trans swapped_perm, ip.le, ip.before, ip.after⟩, f1.trans f4⟩

theorem partitionForward_spec {p : α → Bool} {first : Nat} : ∀ (n : Nat) {m : Mem α} {xs : List α} {a c : Nat}, m.Seg first xs → a < c → c + n = xs.length →
    (∀ i x, i < a → xs[i]? = some x → p x = true) → (∀ i x, a ≤ i → i < c → xs[i]? = some x → p x = false) →
    ∃ m' ys k, partitionForward p n m (first + a) (first + c) = some (m', first + k) ∧ m'.Seg first ys ∧ IsPartition p xs ys k ∧
      m.SameOff m' (InRange first xs.length)
  | 0, m, xs, a, c, hs, hac, hn, hbefore, hafter => by
    refine ⟨m, xs, a, rfl, hs, ⟨List.Perm.refl _, by omega, hbefore, fun i x hi hx => ?_⟩, fun _ _ => rfl⟩
    have : i < xs.length := (List.getElem?_eq_some_iff.1 hx).1
    exact hafter i x hi (by omega) hx
  | n + 1, m, xs, a, c, hs, hac, hn, hbefore, hafter => by
    have hc : c < xs.length := by omega
    rw [partitionForward, hs c hc]
    simp only [Option.bind_eq_bind, Option.bind_some]
    cases hp : p xs[c] with
    | true =>
      rw [if_pos rfl]
      obtain ⟨m1, e1, s1, f1⟩ := swapAt_spec hs (i := c) (j := a) hc (by omega)
      simp only [e1, Option.bind_some]
      have hlen := swapped_length (xs := xs) (i := c) (j := a)
      have hget := swapped_get (xs := xs) (i := c) (j := a) hc (by omega)
      obtain ⟨m', ys, r, e4, s4, ip, f4⟩ := partitionForward_spec n (p := p) s1 (a := a + 1) (c := c + 1) (by omega) (by omega)
        (fun i x hi hx => by
          rw [hget] at hx
          by_cases hia : i = a
          · rw [if_pos hia, List.getElem?_eq_getElem hc] at hx
            injection hx with hx; rw [← hx]; exact hp
          · rw [if_neg hia, if_neg (by omega)] at hx
            exact hbefore i x (by omega) hx)
        (fun i x h1 h2 hx => by
          rw [hget, if_neg (by omega)] at hx
          by_cases hic : i = c
          · rw [if_pos hic] at hx
            exact hafter a x (by omega) (by omega) hx
          · rw [if_neg hic] at hx
            exact hafter i x (by omega) (by omega) hx)
      rw [hlen] at f4
      exact ⟨m', ys, r, e4, s4, ⟨ip.perm.trans swapped_perm, ip.le, ip.before, ip.after⟩, f1.trans f4⟩
    | false =>
      rw [if_neg (by simp)]
      exact partitionForward_spec n (p := p) hs (a := a) (c := c + 1) (by omega) (by omega) hbefore
        (fun i x h1 h2 hx => by
          by_cases hic : i = c
          · subst hic
            rw [List.getElem?_eq_getElem hc] at hx
            injection hx with hx; rw [← hx]; exact hp
          · exact hafter i x h1 (by omega) hx)

/-- `partition`, both versions: the elements are rearranged, those that satisfy the predicate come
first and the result is their end; only the range is touched. -/
theorem C37_partition (bidir : Bool) {m : Mem α} {p : α → Bool} {xs : List α} {first : Nat} (h : m.Seg first xs) :
    ∃ m' ys k, partition bidir m p first (first + xs.length) = some (m', first + k) ∧ m'.Seg first ys ∧ IsPartition p xs ys k ∧
      m.SameOff m' (InRange first xs.length) := by
  obtain ⟨k, e, hk1, hk2, hk3, hk4⟩ := findIfNot_sub (p := p) h (a := 0) (b := xs.length) (by omega) (by omega)
  rw [Nat.add_zero] at e
  rw [partition, e]
  simp only [Option.bind_eq_bind, Option.bind_some]
  cases bidir with
  | true =>
    simp only [if_true]
    rw [show first + xs.length - (first + k) = xs.length - k by omega]
    obtain ⟨l, e3, hl1, hl2, hl3, hl4⟩ := advanceLast_sub (p := p) h k (xs.length - k) (by omega)
    simp only [e3, Option.bind_some]
    refine partitionLoop_spec _ h (by omega) hl1 (by omega) (fun i x hi hx => hk3 i x (by omega) hi hx)
      (fun i x hi hx => hl3 i x hi (by have := (List.getElem?_eq_some_iff.1 hx).1; omega) hx) (fun he x hx => ?_) (fun hl => ⟨by omega, hk4 (by omega), hl4 (by omega)⟩)
    subst he
    exact hk4 (by have := (List.getElem?_eq_some_iff.1 hx).1; omega) x hx
  | false =>
    simp only [Bool.false_eq_true, if_false]
    by_cases hk : k = xs.length
    · rw [if_pos (by omega)]
      refine ⟨m, xs, k, rfl, h, ⟨List.Perm.refl _, by omega, fun i x hi hx => hk3 i x (by omega) hi hx, fun i x hi hx => ?_⟩, fun _ _ => rfl⟩
      have := (List.getElem?_eq_some_iff.1 hx).1
      omega
    · rw [if_neg (by omega), show first + xs.length - (first + k) - 1 = xs.length - (k + 1) by omega]
      refine partitionForward_spec _ h (a := k) (c := k + 1) (by omega) (by omega) (fun i x hi hx => hk3 i x (by omega) hi hx) (fun i x h1 h2 hx => ?_)
      have : i = k := by omega
      subst this
      exact hk4 (by omega) x hx

/-! ## iterator_partition -/

theorem iteratorPartitionLoop_spec {cmp : α → α → Bool} {v : α} (hv : cmp v v = false) {first : Nat} : ∀ (f : Nat) {m : Mem α} {xs : List α} {a b c : Nat}, m.Seg first xs →
    b - a < f → a ≤ b → b ≤ xs.length → a ≤ c → xs[c]? = some v →
    (∀ i x, i < a → xs[i]? = some x → cmp x v = true) → (∀ i x, b ≤ i → xs[i]? = some x → cmp x v = false) →
    ∃ m' ys k, iteratorPartitionLoop cmp f m (first + a) (first + c) (first + b) = some (m', first + k) ∧ m'.Seg first ys ∧
      IsPartition (fun x => cmp x v) xs ys k ∧ m.SameOff m' (InRange first xs.length)
  | 0, m, xs, a, b, c, _, hf, _, _, _, _, _, _ => by omega
  | f + 1, m, xs, a, b, c, hs, hf, hab, hb, hac, hvc, hbefore, hafter => by
    have hcn : c < xs.length := (List.getElem?_eq_some_iff.1 hvc).1
    rw [iteratorPartitionLoop, hs.get hcn, hvc]
    simp only [Option.bind_eq_bind, Option.bind_some]
    obtain ⟨k, e, hk1, hk2, hk3, hk4⟩ := findIfNot_sub (p := fun x => cmp x v) hs hac (by omega)
    simp only [e, Option.bind_some]
    have hkb : k ≤ b := by
      by_contra hcon
      have hbn : b < xs.length := by omega
      have h1 := hk3 b xs[b] hab (by omega) (List.getElem?_eq_getElem hbn)
      rw [hafter b _ (Nat.le_refl _) (List.getElem?_eq_getElem hbn)] at h1; cases h1
    have hnotk : ∀ x, xs[k]? = some x → cmp x v = false := by
      intro x hx
      by_cases hkc : k = c
      · subst hkc; rw [hvc] at hx; injection hx with hx; rw [← hx]; exact hv
      · exact hk4 (by omega) x hx
    have hbefore' : ∀ i x, i < k → xs[i]? = some x → cmp x v = true := by
      intro i x hi hx
      by_cases hia : i < a
      · exact hbefore i x hia hx
      · exact hk3 i x (by omega) hi hx
    by_cases hke : k = b
    · rw [if_pos (by omega)]
      exact ⟨m, xs, k, rfl, hs, ⟨List.Perm.refl _, by omega, hbefore', fun i x hi hx => hafter i x (by omega) hx⟩, fun _ _ => rfl⟩
    · rw [if_neg (by omega)]
      rcases findLastIf_sub (p := fun x => cmp x v) hs (a := k + 1) (b := b) (by omega) hb with ⟨l, e2, hl1, hl2, hl3, hl4⟩ | ⟨e2, hl1⟩
      · rw [show first + k + 1 = first + (k + 1) by omega, e2]
        simp only [Option.bind_some]
        rw [if_neg (by omega)]
        obtain ⟨m1, e3, s1, f1⟩ := swapAt_spec hs (i := k) (j := l) (by omega) (by omega)
        simp only [e3, Option.bind_some]
        have hlen := swapped_length (xs := xs) (i := k) (j := l)
        have hget := swapped_get (xs := xs) (i := k) (j := l) (by omega) (by omega)
        have hcl : c ≠ l := by
          rintro rfl
          have := hl3 v hvc
          rw [hv] at this; cases this
        have hmid : (if first + k = first + c then first + l else first + c) = first + (if k = c then l else c) := by
          by_cases hkc : k = c
          · rw [if_pos (by omega), if_pos hkc]
          · rw [if_neg (by omega), if_neg hkc]
        rw [hmid]
        obtain ⟨m', ys, r, e4, s4, ip, f4⟩ := iteratorPartitionLoop_spec hv f s1 (a := k + 1) (b := l) (c := if k = c then l else c)
          (by omega) (by omega) (by omega) (by split <;> omega)
          (by
            rw [hget]
            by_cases hkc : k = c
            · rw [if_pos hkc, if_pos rfl, hkc]; exact hvc
            · rw [if_neg hkc, if_neg hcl, if_neg (fun h => hkc h.symm)]; exact hvc)
          (fun i x hi hx => by
            rw [hget, if_neg (by omega)] at hx
            by_cases hik : i = k
            · rw [if_pos hik] at hx; exact hl3 x hx
            · rw [if_neg hik] at hx; exact hbefore' i x (by omega) hx)
          (fun i x hi hx => by
            rw [hget] at hx
            by_cases hil : i = l
            · rw [if_pos hil] at hx; exact hnotk x hx
            · rw [if_neg hil, if_neg (by omega)] at hx
              by_cases hib : i < b
              · exact hl4 i x (by omega) hib hx
              · exact hafter i x (by omega) hx)
        rw [hlen] at f4
        exact ⟨m', ys, r, e4, s4, ⟨ip.perm.trans swapped_perm, ip.le, ip.before, ip.after⟩, f1.trans f4⟩
      · rw [show first + k + 1 = first + (k + 1) by omega, e2]
        simp only [Option.bind_some, if_true]
        refine ⟨m, xs, k, rfl, hs, ⟨List.Perm.refl _, by omega, hbefore', fun i x hi hx => ?_⟩, fun _ _ => rfl⟩
        by_cases hik : i = k
        · subst hik; exact hnotk x hx
        · by_cases hib : i < b
          · exact hl1 i x (by omega) hib hx
          · exact hafter i x (by omega) hx

/-- `iterator_partition` puts the elements that are less than the element initially at `middle` first
and returns their end. -/
theorem C37_iterator_partition {cmp : α → α → Bool} (hirr : ∀ x, cmp x x = false) {m : Mem α} {xs : List α} {first c : Nat} {v : α} (h : m.Seg first xs)
    (hv : xs[c]? = some v) :
    ∃ m' ys k, iteratorPartition cmp m first (first + c) (first + xs.length) = some (m', first + k) ∧ m'.Seg first ys ∧
      IsPartition (fun x => cmp x v) xs ys k ∧ m.SameOff m' (InRange first xs.length) := by
  have hc : c < xs.length := (List.getElem?_eq_some_iff.1 hv).1
  rw [iteratorPartition, if_neg (by omega), if_neg (by omega)]
  exact iteratorPartitionLoop_spec (hirr v) _ h (a := 0) (b := xs.length) (by omega) (by omega) (by omega) (by omega) hv (fun i x hi => by omega)
    (fun i x hi hx => by have := (List.getElem?_eq_some_iff.1 hx).1; omega)

/-- On an empty range it returns the range. -/
theorem C37_iterator_partition_empty (cmp : α → α → Bool) (m : Mem α) (first : Nat) :
    iteratorPartition cmp m first first first = some (m, first) := by simp [iteratorPartition]

/-! ## Examples -/

/-- Six elements at address 10. -/
def exPart : Mem Nat := fun a => if 10 ≤ a then [5, 2, 8, 3, 9, 4][a - 10]? else none

example : (partition true exPart (fun x => x % 2 == 0) 10 16).map (fun r => (r.2, (List.range 6).map fun i => r.1 (10 + i))) =
    some (13, [some 4, some 2, some 8, some 3, some 9, some 5]) := by decide +kernel

example : (partition false exPart (fun x => x % 2 == 0) 10 16).map (fun r => (r.2, (List.range 6).map fun i => r.1 (10 + i))) =
    some (13, [some 2, some 8, some 4, some 3, some 9, some 5]) := by decide +kernel

example : (iteratorPartition (fun a b : Nat => decide (a < b)) exPart 10 10 16).map (fun r => (r.2, (List.range 6).map fun i => r.1 (10 + i))) =
    some (13, [some 4, some 2, some 3, some 8, some 9, some 5]) := by decide +kernel

end Verif.Algo
