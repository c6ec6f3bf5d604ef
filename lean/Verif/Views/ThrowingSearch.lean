import Verif.Views.ThrowingAlgo

/-!
# Searching and checking views whose functions throw (property C117)

Models /repo/source/containers/algorithms/partition.cpp (`is_partitioned`, `partition_point`), binary_search.cpp, sort/is_sorted.cpp, minmax_element.cpp
(`max_element`) and starts_with.cpp for views whose functions may throw, with function objects that may throw.
-/

namespace Verif.Views.Calling

variable {τ σ σ' ρ π κ : Type}

/-- `advance` (`algorithms/advance.cpp` 31-35), for iterators without random access. -/
def advanceC (r : RngC τ σ ρ) : Nat → σ → Act τ σ
  | 0, s => pure s
  | n + 1, s => do
    let s ← r.next s
    advanceC r n s

/-- `is_partitioned` (`algorithms/partition.cpp` 31-36). -/
def isPartitionedC (r : RngC τ σ ρ) (p : Fn τ ρ Bool) (N : Nat) (first : σ) : Act τ Bool := do
  let it ← findIfC r p.neg N first
  let it ← findIfC r p N it
  r.atEnd it

/-- The loop of `partition_point` (`algorithms/partition.cpp` 44-55); the first number bounds the rounds, the second is `count`. -/
def partitionPointC (r : RngC τ σ ρ) (p : Fn τ ρ Bool) : Nat → Nat → σ → Act τ σ
  | _, 0, first => pure first
  | 0, _ + 1, _ => .ub
  | f + 1, count + 1, first => do
    let it ← advanceC r ((count + 1) / 2) first
    let x ← r.deref it
    let b ← p.call x
    if b then do
      let first ← r.next it
      partitionPointC r p f (count + 1 - ((count + 1) / 2 + 1)) first
    else partitionPointC r p f ((count + 1) / 2) first

/-- The predicate of `lower_bound` (`algorithms/binary_search.cpp` 23). -/
def lowerFn (cmp : Fn τ (ρ × ρ) Bool) (value : ρ) : Fn τ ρ Bool where
  run x t := cmp.run (x, value) t
  value x := cmp.value (x, value)
  agrees x t b h := cmp.agrees (x, value) t b h

/-- The predicate of `upper_bound` (`algorithms/binary_search.cpp` 33). -/
def upperFn (cmp : Fn τ (ρ × ρ) Bool) (value : ρ) : Fn τ ρ Bool where
  run x t := ((cmp.run (value, x) t).1.map not, (cmp.run (value, x) t).2)
  value x := !cmp.value (value, x)
  agrees x t b h := by
    obtain ⟨c, hc, rfl⟩ := Option.map_eq_some_iff.1 h
    rw [cmp.agrees _ _ _ hc]

/-- `lower_bound` (`algorithms/binary_search.cpp` 22-24, `algorithms/partition.cpp` 38-41); `n` is the size of the range. -/
def lowerBoundC (r : RngC τ σ ρ) (cmp : Fn τ (ρ × ρ) Bool) (value : ρ) (n : Nat) (first : σ) : Act τ σ := partitionPointC r (lowerFn cmp value) n n first

/-- `upper_bound` (`algorithms/binary_search.cpp` 32-34, `algorithms/partition.cpp` 38-41). -/
def upperBoundC (r : RngC τ σ ρ) (cmp : Fn τ (ρ × ρ) Bool) (value : ρ) (n : Nat) (first : σ) : Act τ σ := partitionPointC r (upperFn cmp value) n n first

/-- `binary_search` (`algorithms/binary_search.cpp` 59-62). -/
def binarySearchC (r : RngC τ σ ρ) (cmp : Fn τ (ρ × ρ) Bool) (value : ρ) (n : Nat) (first : σ) : Act τ Bool := do
  let it ← lowerBoundC r cmp value n first
  if ← r.atEnd it then pure false else do
    let x ← r.deref it
    let b ← cmp.call (value, x)
    pure (!b)

/-- The loop of `is_sorted` (`algorithms/sort/is_sorted.cpp` 25-37): `first` is the iterator before `next`. -/
def isSortedLoopC (r : RngC τ σ ρ) (cmp : Fn τ (ρ × ρ) Bool) : Nat → σ → σ → Act τ Bool
  | 0, _, _ => .ub
  | f + 1, first, next => do
    if ← r.atEnd next then pure true else do
      let y ← r.deref next
      let x ← r.deref first
      let b ← cmp.call (y, x)
      if b then pure false else do
        let next' ← r.next next
        isSortedLoopC r cmp f next next'

/-- `is_sorted` (`algorithms/sort/is_sorted.cpp` 21-40). -/
def isSortedC (r : RngC τ σ ρ) (cmp : Fn τ (ρ × ρ) Bool) (N : Nat) (first : σ) : Act τ Bool := do
  if ← r.atEnd first then pure true else do
    let next ← r.next first
    isSortedLoopC r cmp N first next

/-- The function object of `max_element` (`algorithms/minmax_element.cpp` 45-47). -/
def notGreaterFn (greater : Fn τ (ρ × ρ) Bool) : Fn τ (ρ × ρ) Bool where
  run x t := ((greater.run (x.2, x.1) t).1.map not, (greater.run (x.2, x.1) t).2)
  value x := !greater.value (x.2, x.1)
  agrees x t b h := by
    obtain ⟨c, hc, rfl⟩ := Option.map_eq_some_iff.1 h
    rw [greater.agrees _ _ _ hc]

/-- `max_element` (`algorithms/minmax_element.cpp` 44-49). -/
def maxC (r : RngC τ σ ρ) (greater : Fn τ (ρ × ρ) Bool) (N : Nat) (first : σ) : Act τ σ := minC r (notGreaterFn greater) N first

/-- `starts_with` (`algorithms/starts_with.cpp` 21-26); `n` is the size of the prefix. -/
def startsWithC (full : RngC τ σ ρ) (pre : RngC τ σ' π) (eq : Fn τ (ρ × π) Bool) (N n : Nat) (first : σ) (first' : σ') : Act τ Bool :=
  equalC (takeC full) pre eq N (first, n) first'

/-! ## Specification -/

/-- The elements that satisfy the predicate come first. -/
def Partitioned (p : ρ → Bool) (xs : List ρ) : Prop := ∃ pre post, xs = pre ++ post ∧ (∀ x ∈ pre, p x = true) ∧ ∀ x ∈ post, p x = false

/-- No element is less than one before it. -/
def SortedBy (lt : ρ × ρ → Bool) (xs : List ρ) : Prop := xs.Pairwise fun a b => lt (b, a) = false

/-- The last of the greatest elements. -/
def IsLastMax (gt : ρ × ρ → Bool) (pre : List ρ) (x : ρ) (post : List ρ) : Prop := (∀ y ∈ pre, gt (y, x) = false) ∧ ∀ y ∈ post, gt (x, y) = true

/-! ## Proofs -/

variable {quiet : Prop}

theorem lowerFn_quiet {cmp : Fn τ (ρ × ρ) Bool} {v : ρ} (h : cmp.Quiet) : (lowerFn cmp v).Quiet := fun a t => h (a, v) t

theorem upperFn_quiet {cmp : Fn τ (ρ × ρ) Bool} {v : ρ} (h : cmp.Quiet) : (upperFn cmp v).Quiet := fun a t => by
  simpa [upperFn] using h (v, a) t

theorem notGreaterFn_quiet {cmp : Fn τ (ρ × ρ) Bool} (h : cmp.Quiet) : (notGreaterFn cmp).Quiet := fun a t => by
  simpa [notGreaterFn] using h (a.2, a.1) t

theorem advanceC_post {r : RngC τ σ ρ} : ∀ (a : List ρ) {b : List ρ} {s : σ}, VisitsC quiet r s (a ++ b) →
    ∃ s', Post quiet (advanceC r a.length s) (· = s') ∧ VisitsC quiet r s' b
  | [], _, s, h => ⟨s, Post.pure rfl, h⟩
  | _ :: a, _, _, ⟨_, _, _, h3, h4⟩ =>
    let ⟨z, e, v⟩ := advanceC_post a h4
    ⟨z, Post.eq h3 e, v⟩

theorem partitioned_iff (p : ρ → Bool) (xs : List ρ) : Partitioned p xs ↔ (xs.dropWhile p).all (fun x => !p x) = true := by
  constructor
  · rintro ⟨pre, post, rfl, h1, h2⟩
    have h3 : (pre.dropWhile p).isEmpty = true := by rw [dropWhile_isEmpty]; exact List.all_eq_true.2 h1
    rw [List.dropWhile_append, if_pos h3]
    refine List.all_eq_true.2 fun x hx => ?_
    rw [h2 x ((List.dropWhile_sublist p).subset hx)]
    rfl
  · intro h
    refine ⟨xs.takeWhile p, xs.dropWhile p, List.takeWhile_append_dropWhile.symm, fun x hx => ?_, fun x hx => by simpa using List.all_eq_true.1 h x hx⟩
    exact List.all_eq_true.1 List.all_takeWhile x hx

theorem partitionPointC_post {p : Fn τ ρ Bool} (hq : quiet → p.Quiet) {r : RngC τ σ ρ} : ∀ (f : Nat) (xs : List ρ) {rest : List ρ} {s : σ}, xs.length ≤ f →
    (∀ x ∈ xs.dropWhile p.value, p.value x = false) → VisitsC quiet r s (xs ++ rest) →
    Post quiet (partitionPointC r p f xs.length s) fun z => VisitsC quiet r z (xs.dropWhile p.value ++ rest)
  | f, [], _, s, _, _, h => by
    cases f <;> exact Post.pure h
  | f + 1, x :: xs, rest, s, hf, hp, h => by
    obtain ⟨a, y, b, e, ha⟩ : ∃ a y b, x :: xs = a ++ y :: b ∧ a.length = (xs.length + 1) / 2 := by
      have hlt : (xs.length + 1) / 2 < (x :: xs).length := by rw [List.length_cons]; omega
      refine ⟨(x :: xs).take ((xs.length + 1) / 2), (x :: xs)[(xs.length + 1) / 2], (x :: xs).drop ((xs.length + 1) / 2 + 1), ?_, ?_⟩
      · rw [← List.drop_eq_getElem_cons hlt, List.take_append_drop]
      · rw [List.length_take]; omega
    have hlen : xs.length + 1 = a.length + (b.length + 1) := by
      have := congrArg List.length e
      simpa using this
    rw [List.length_cons] at hf ⊢
    rw [e] at hp h ⊢
    rw [List.append_assoc] at h
    obtain ⟨it, e1, v⟩ := advanceC_post a h
    have v' := v
    obtain ⟨_, v2, it', v3, v4⟩ := v
    have hstep : Post quiet (advanceC r ((xs.length + 1) / 2) s) (· = it) := by rw [← ha]; exact e1
    refine Post.eq hstep (Post.eq v2 (Post.eq (p.post hq y) ?_))
    rw [List.dropWhile_append] at hp ⊢
    cases hy : p.value y with
    | true =>
      have hempty : (a.dropWhile p.value).isEmpty = true := by
        by_contra hc
        rw [if_neg hc] at hp
        have := hp y (by simp)
        rw [hy] at this
        exact absurd this (by simp)
      rw [if_pos hempty, List.dropWhile_cons_of_pos hy] at hp ⊢
      have hc : xs.length + 1 - ((xs.length + 1) / 2 + 1) = b.length := by omega
      refine Post.eq v3 ?_
      rw [hc]
      exact partitionPointC_post hq f b (by omega) hp v4
    | false =>
      have hd : (y :: b).dropWhile p.value = y :: b := by rw [List.dropWhile_cons_of_neg (by simp [hy])]
      have hres : (if (a.dropWhile p.value).isEmpty = true then (y :: b).dropWhile p.value else a.dropWhile p.value ++ y :: b) = a.dropWhile p.value ++ y :: b := by
        split
        · next hc => rw [hd, List.isEmpty_iff.1 hc]; rfl
        · rfl
      rw [hres] at hp ⊢
      rw [List.append_assoc]
      have := partitionPointC_post hq f a (rest := y :: b ++ rest) (s := s) (by omega) (fun x hx => hp x (by simp [hx])) h
      rw [ha] at this
      exact this

theorem isPartitionedC_post {p : Fn τ ρ Bool} (hq : quiet → p.Quiet) {r : RngC τ σ ρ} {xs : List ρ} {s : σ} {N : Nat} (h : VisitsC quiet r s xs) (hN : xs.length < N) :
    Post quiet (isPartitionedC r p N s) fun b => b = true ↔ Partitioned p.value xs := by
  obtain ⟨s', e, v⟩ := findIfC_post (p := p.neg) (fun q => Fn.neg_quiet (hq q)) h hN
  have hl := (List.dropWhile_sublist (l := xs) fun x => !p.neg.value x).length_le
  obtain ⟨s2, e2, v2⟩ := findIfC_post (p := p) hq (f := N) v (by omega)
  refine Post.eq e (Post.eq e2 (v2.atEnd.mono id fun b hb => ?_))
  have hn : (fun x => !p.neg.value x) = p.value := funext fun x => by simp [Fn.neg]
  rw [hb, dropWhile_isEmpty, hn, partitioned_iff]

theorem isSortedLoopC_post {cmp : Fn τ (ρ × ρ) Bool} (hq : quiet → cmp.Quiet) {r : RngC τ σ ρ} : ∀ {xs : List ρ} {x : ρ} {s s' : σ} {N : Nat},
    Post quiet (r.deref s) (· = x) → VisitsC quiet r s' xs → xs.length < N →
    Post quiet (isSortedLoopC r cmp N s s') fun b => b = true ↔ (x :: xs).IsChain fun a b => cmp.value (b, a) = false
  | _, _, _, _, 0, _, _, hN => by omega
  | [], x, _, _, N + 1, _, h, _ => Post.eq h (Post.pure (by simp))
  | y :: ys, x, _, _, N + 1, hx, ⟨h1, h2, s2, h3, h4⟩, hN => by
    refine Post.eq h1 (Post.eq h2 (Post.eq hx (Post.eq (cmp.post hq (y, x)) ?_)))
    cases hc : cmp.value (y, x) with
    | true => exact Post.pure (by simp [hc])
    | false =>
      refine Post.eq h3 ((isSortedLoopC_post hq h2 h4 (by simpa using hN)).mono id fun b hb => ?_)
      rw [hb, List.isChain_cons_cons, hc]
      simp

theorem sorted_of_chain {lt : ρ × ρ → Bool} (hs : Algo.StrictWeak fun a b => lt (a, b)) (xs : List ρ) : xs.IsChain (fun a b => lt (b, a) = false) ↔ SortedBy lt xs := by
  have : IsTrans ρ fun a b => lt (b, a) = false := ⟨fun a b c h1 h2 => hs.negTrans h1 h2⟩
  exact List.isChain_iff_pairwise

theorem isSortedC_post {cmp : Fn τ (ρ × ρ) Bool} (hq : quiet → cmp.Quiet) (hs : Algo.StrictWeak fun a b => cmp.value (a, b)) {r : RngC τ σ ρ} {xs : List ρ} {s : σ} {N : Nat}
    (h : VisitsC quiet r s xs) (hN : xs.length < N) : Post quiet (isSortedC r cmp N s) fun b => b = true ↔ SortedBy cmp.value xs := by
  cases xs with
  | nil => exact Post.eq h (Post.pure (by simp [SortedBy]))
  | cons x xs =>
    obtain ⟨h1, h2, s', h3, h4⟩ := h
    rw [List.length_cons] at hN
    refine Post.eq h1 (Post.eq h3 ((isSortedLoopC_post hq h2 h4 (by omega)).mono id fun b hb => ?_))
    rw [hb, sorted_of_chain hs]

theorem lower_partitioned {lt : ρ × ρ → Bool} (hs : Algo.StrictWeak fun a b => lt (a, b)) (v : ρ) : ∀ {xs : List ρ}, SortedBy lt xs →
    ∀ x ∈ xs.dropWhile (fun x => lt (x, v)), lt (x, v) = false
  | [], _ => by simp
  | y :: ys, h => by
    have h := List.pairwise_cons.1 h
    cases hy : lt (y, v) with
    | true => rw [List.dropWhile_cons_of_pos (by simp [hy])]; exact lower_partitioned hs v h.2
    | false =>
      rw [List.dropWhile_cons_of_neg (by simp [hy])]
      intro x hx
      rcases List.mem_cons.1 hx with rfl | hx
      · exact hy
      · exact hs.negTrans hy (h.1 x hx)

theorem upper_partitioned {lt : ρ × ρ → Bool} (hs : Algo.StrictWeak fun a b => lt (a, b)) (v : ρ) : ∀ {xs : List ρ}, SortedBy lt xs →
    ∀ x ∈ xs.dropWhile (fun x => !lt (v, x)), lt (v, x) = true
  | [], _ => by simp
  | y :: ys, h => by
    have h := List.pairwise_cons.1 h
    cases hy : lt (v, y) with
    | false => rw [List.dropWhile_cons_of_pos (by simp [hy])]; exact upper_partitioned hs v h.2
    | true =>
      rw [List.dropWhile_cons_of_neg (by simp [hy])]
      intro x hx
      rcases List.mem_cons.1 hx with rfl | hx
      · exact hy
      · by_contra hc
        have : lt (v, y) = false := hs.negTrans (h.1 x hx) (by simpa using hc)
        rw [hy] at this
        exact absurd this (by simp)

theorem maxLoopC_post {gt : Fn τ (ρ × ρ) Bool} (hq : quiet → gt.Quiet) (hs : Algo.StrictWeak fun a b => gt.value (a, b)) {r : RngC τ σ ρ} :
    ∀ {ys pre mid : List ρ} {x : ρ} {it largest : σ} {N : Nat}, VisitsC quiet r it ys → VisitsC quiet r largest (x :: (mid ++ ys)) →
    IsLastMax gt.value pre x mid → ys.length < N →
    Post quiet (minLoopC r (notGreaterFn gt) N it largest) fun z => ∃ pre' x' post', pre' ++ x' :: post' = pre ++ x :: (mid ++ ys) ∧ VisitsC quiet r z (x' :: post') ∧
      IsLastMax gt.value pre' x' post'
  | _, _, _, _, _, _, 0, _, _, _, hN => by omega
  | [], pre, mid, x, _, _, N + 1, h, hx, hm, _ => Post.eq h (Post.pure ⟨pre, x, mid, by simp, by simpa using hx, hm⟩)
  | y :: ys, pre, mid, x, it, largest, N + 1, h, hx, hm, hN => by
    obtain ⟨h1, h2, s', h3, h4⟩ := h
    refine Post.eq h1 (Post.eq h2 (Post.eq hx.2.1 (Post.eq ((notGreaterFn gt).post (fun q => notGreaterFn_quiet (hq q)) (y, x)) (Post.eq h3 ?_))))
    have hv : (notGreaterFn gt).value (y, x) = !gt.value (x, y) := rfl
    rw [hv]
    cases hp : gt.value (x, y) with
    | false =>
      have hm' : IsLastMax gt.value (pre ++ x :: mid) y [] := by
        refine ⟨fun z hz => ?_, by simp⟩
        rcases List.mem_append.1 hz with hz | hz
        · exact hs.negTrans hp (hm.1 z hz)
        · rcases List.mem_cons.1 hz with rfl | hz
          · exact hp
          · exact hs.negTrans hp (hs.asymm (hm.2 z hz))
      refine (maxLoopC_post hq hs (pre := pre ++ x :: mid) (mid := []) (x := y) h4 ⟨h1, h2, s', h3, h4⟩ hm' (by simpa using hN)).mono id ?_
      rintro z ⟨p', x', q', e, v⟩
      exact ⟨p', x', q', by rw [e]; simp, v⟩
    | true =>
      have hm' : IsLastMax gt.value pre x (mid ++ [y]) := by
        refine ⟨hm.1, fun z hz => ?_⟩
        rcases List.mem_append.1 hz with hz | hz
        · exact hm.2 z hz
        · rw [List.mem_singleton.1 hz]; exact hp
      refine (maxLoopC_post hq hs (pre := pre) (mid := mid ++ [y]) (x := x) h4 (by simpa using hx) hm' (by simpa using hN)).mono id ?_
      rintro z ⟨p', x', q', e, v⟩
      exact ⟨p', x', q', by rw [e]; simp, v⟩

theorem maxC_post {gt : Fn τ (ρ × ρ) Bool} (hq : quiet → gt.Quiet) (hs : Algo.StrictWeak fun a b => gt.value (a, b)) {r : RngC τ σ ρ} {xs : List ρ} {s : σ} {N : Nat}
    (h : VisitsC quiet r s xs) (hN : xs.length < N) :
    Post quiet (maxC r gt N s) fun z => (xs = [] ∧ VisitsC quiet r z []) ∨ ∃ pre x post, xs = pre ++ x :: post ∧ VisitsC quiet r z (x :: post) ∧ IsLastMax gt.value pre x post := by
  cases xs with
  | nil => exact Post.eq h (Post.pure (.inl ⟨rfl, h⟩))
  | cons x xs =>
    obtain ⟨h1, h2, s', h3, h4⟩ := h
    refine Post.eq h1 (Post.eq h3 ?_)
    rw [List.length_cons] at hN
    refine (maxLoopC_post hq hs (pre := []) (mid := []) (x := x) h4 ⟨h1, h2, s', h3, h4⟩ ⟨by simp, by simp⟩ (by omega)).mono id ?_
    rintro z ⟨p', x', q', e, v⟩
    exact .inr ⟨p', x', q', by rw [e]; rfl, v⟩

theorem binarySearchC_post {cmp : Fn τ (ρ × ρ) Bool} (hq : quiet → cmp.Quiet) (hs : Algo.StrictWeak fun a b => cmp.value (a, b)) (v : ρ) {r : RngC τ σ ρ} {xs : List ρ} {s : σ}
    (h : VisitsC quiet r s xs) (hx : SortedBy cmp.value xs) :
    Post quiet (binarySearchC r cmp v xs.length s) fun b => b = true ↔ ∃ x ∈ xs, cmp.value (x, v) = false ∧ cmp.value (v, x) = false := by
  have hl := partitionPointC_post (p := lowerFn cmp v) (fun q => lowerFn_quiet (hq q)) xs.length xs (rest := []) (Nat.le_refl _) (lower_partitioned hs v hx)
    (by rw [List.append_nil]; exact h)
  refine hl.bind fun z hz => ?_
  rw [List.append_nil] at hz
  have hsplit := List.takeWhile_append_dropWhile (p := (lowerFn cmp v).value) (l := xs)
  have hpre : ∀ x ∈ xs.takeWhile (lowerFn cmp v).value, cmp.value (x, v) = true := fun x hx => List.all_eq_true.1 (List.all_takeWhile (p := (lowerFn cmp v).value)) x hx
  have hpost := lower_partitioned hs v hx
  have hsub : SortedBy cmp.value (xs.dropWhile (lowerFn cmp v).value) := hx.sublist (List.dropWhile_sublist _)
  change ∀ x ∈ xs.dropWhile (lowerFn cmp v).value, _ at hpost
  cases hd : xs.dropWhile (lowerFn cmp v).value with
  | nil =>
    rw [hd] at hz hsplit
    refine Post.eq hz (Post.pure ?_)
    rw [List.append_nil] at hsplit
    rw [hsplit] at hpre
    constructor
    · intro h; exact absurd h (by simp)
    · rintro ⟨x, hx, h1, _⟩
      rw [hpre x hx] at h1
      exact absurd h1 (by simp)
  | cons y ys =>
    rw [hd] at hz hsplit hpost hsub
    refine Post.eq hz.1 (Post.eq hz.2.1 (Post.eq (cmp.post hq (v, y)) (Post.pure ?_)))
    cases hc : cmp.value (v, y) with
    | false =>
      refine ⟨fun _ => ⟨y, ?_, hpost y (by simp), hc⟩, fun _ => rfl⟩
      rw [← hsplit]
      simp
    | true =>
      constructor
      · intro h; exact absurd h (by simp)
      · rintro ⟨x, hx, h1, h2⟩
        rw [← hsplit] at hx
        rcases List.mem_append.1 hx with hx | hx
        · rw [hpre x hx] at h1
          exact absurd h1 (by simp)
        · have := upper_partitioned hs v hsub
          rw [List.dropWhile_cons_of_neg (by simp [hc])] at this
          rw [this x hx] at h2
          exact absurd h2 (by simp)

/-! ## The theorems -/

variable {D : Nat}

/-- **C117**, `is_partitioned`. -/
theorem C117_is_partitioned (p : PipeC τ ρ) (hp : p.Fits D) (q : Fn τ ρ Bool) :
    Post (q.Quiet ∧ p.Quiet) (onView D p fun B => isPartitionedC B.ops q (D + 1) B.first) fun b => b = true ↔ Partitioned q.value p.denote :=
  onView_post p hp fun _ v hl => isPartitionedC_post (fun x => x.1) v hl

/-- **C117**, `is_sorted`. -/
theorem C117_is_sorted (p : PipeC τ ρ) (hp : p.Fits D) (cmp : Fn τ (ρ × ρ) Bool) (hs : Algo.StrictWeak fun a b => cmp.value (a, b)) :
    Post (cmp.Quiet ∧ p.Quiet) (onView D p fun B => isSortedC B.ops cmp (D + 1) B.first) fun b => b = true ↔ SortedBy cmp.value p.denote :=
  onView_post p hp fun _ v hl => isSortedC_post (fun x => x.1) hs v hl

/-- **C117**, `partition_point`: the iterator is at the first element that does not satisfy the predicate, or at the end. -/
theorem C117_partition_point (p : PipeC τ ρ) (hp : p.Fits D) (q : Fn τ ρ Bool) (h : Partitioned q.value p.denote) :
    Post (q.Quiet ∧ p.Quiet) ((p.build D).bind fun B => (partitionPointC B.ops q p.denote.length p.denote.length B.first).bind fun z =>
        .pure (⟨B, z⟩ : (B : BuiltC τ ρ) × B.σ)) fun V => VisitsC (q.Quiet ∧ p.Quiet) V.1.ops V.2 (p.denote.dropWhile q.value) :=
  ((C116_view p hp).mono (fun x : q.Quiet ∧ p.Quiet => x.2) fun _ e => e).bind fun B v =>
    (partitionPointC_post (quiet := q.Quiet ∧ p.Quiet) (fun x => x.1) p.denote.length p.denote (rest := []) (Nat.le_refl _)
      (fun x hx => by simpa using List.all_eq_true.1 ((partitioned_iff _ _).1 h) x hx)
      (by rw [List.append_nil]; exact v.mono fun x => x.2)).bind fun _ h => Post.pure (by rwa [List.append_nil] at h)

/-- **C117**, `lower_bound` of a sorted view: the iterator is at the first element that is not less than the value, or at the end. -/
theorem C117_lower_bound (p : PipeC τ ρ) (hp : p.Fits D) (cmp : Fn τ (ρ × ρ) Bool) (hs : Algo.StrictWeak fun a b => cmp.value (a, b)) (h : SortedBy cmp.value p.denote) (x : ρ) :
    Post (cmp.Quiet ∧ p.Quiet) ((p.build D).bind fun B => (lowerBoundC B.ops cmp x p.denote.length B.first).bind fun z => .pure (⟨B, z⟩ : (B : BuiltC τ ρ) × B.σ)) fun V =>
      ∃ pre post, p.denote = pre ++ post ∧ VisitsC (cmp.Quiet ∧ p.Quiet) V.1.ops V.2 post ∧ (∀ y ∈ pre, cmp.value (y, x) = true) ∧ ∀ y ∈ post, cmp.value (y, x) = false :=
  ((C116_view p hp).mono (fun x : cmp.Quiet ∧ p.Quiet => x.2) fun _ e => e).bind fun B v =>
    (partitionPointC_post (quiet := cmp.Quiet ∧ p.Quiet) (p := lowerFn cmp x) (fun q => lowerFn_quiet q.1) p.denote.length p.denote (rest := []) (Nat.le_refl _)
      (lower_partitioned hs x h) (by rw [List.append_nil]; exact v.mono fun x => x.2)).bind fun _ hz => Post.pure
        ⟨_, _, List.takeWhile_append_dropWhile.symm, by rwa [List.append_nil] at hz,
          fun y hy => List.all_eq_true.1 (List.all_takeWhile (p := (lowerFn cmp x).value)) y hy, lower_partitioned hs x h⟩

/-- **C117**, `upper_bound` of a sorted view: the iterator is at the first element that is greater than the value, or at the end. -/
theorem C117_upper_bound (p : PipeC τ ρ) (hp : p.Fits D) (cmp : Fn τ (ρ × ρ) Bool) (hs : Algo.StrictWeak fun a b => cmp.value (a, b)) (h : SortedBy cmp.value p.denote) (x : ρ) :
    Post (cmp.Quiet ∧ p.Quiet) ((p.build D).bind fun B => (upperBoundC B.ops cmp x p.denote.length B.first).bind fun z => .pure (⟨B, z⟩ : (B : BuiltC τ ρ) × B.σ)) fun V =>
      ∃ pre post, p.denote = pre ++ post ∧ VisitsC (cmp.Quiet ∧ p.Quiet) V.1.ops V.2 post ∧ (∀ y ∈ pre, cmp.value (x, y) = false) ∧ ∀ y ∈ post, cmp.value (x, y) = true :=
  ((C116_view p hp).mono (fun x : cmp.Quiet ∧ p.Quiet => x.2) fun _ e => e).bind fun B v =>
    (partitionPointC_post (quiet := cmp.Quiet ∧ p.Quiet) (p := upperFn cmp x) (fun q => upperFn_quiet q.1) p.denote.length p.denote (rest := []) (Nat.le_refl _)
      (fun y hy => by simpa [upperFn] using upper_partitioned hs x h y hy) (by rw [List.append_nil]; exact v.mono fun x => x.2)).bind fun _ hz => Post.pure
        ⟨_, _, List.takeWhile_append_dropWhile.symm, by rwa [List.append_nil] at hz,
          fun y hy => by simpa [upperFn] using List.all_eq_true.1 (List.all_takeWhile (p := (upperFn cmp x).value)) y hy, upper_partitioned hs x h⟩

/-- **C117**, `binary_search` of a sorted view: whether there is an element that is neither less nor greater than the value. -/
theorem C117_binary_search (p : PipeC τ ρ) (hp : p.Fits D) (cmp : Fn τ (ρ × ρ) Bool) (hs : Algo.StrictWeak fun a b => cmp.value (a, b)) (h : SortedBy cmp.value p.denote) (x : ρ) :
    Post (cmp.Quiet ∧ p.Quiet) (onView D p fun B => binarySearchC B.ops cmp x p.denote.length B.first) fun b =>
      b = true ↔ ∃ y ∈ p.denote, cmp.value (y, x) = false ∧ cmp.value (x, y) = false :=
  onView_post p hp fun _ v _ => binarySearchC_post (fun x => x.1) hs x v h

/-- **C117**, `max_element`: the iterator is at the last of the greatest elements, or at the end of an empty view. -/
theorem C117_max_element (p : PipeC τ ρ) (hp : p.Fits D) (gt : Fn τ (ρ × ρ) Bool) (hs : Algo.StrictWeak fun a b => gt.value (a, b)) :
    Post (gt.Quiet ∧ p.Quiet) ((p.build D).bind fun B => (maxC B.ops gt (D + 1) B.first).bind fun z => .pure (⟨B, z⟩ : (B : BuiltC τ ρ) × B.σ)) fun V =>
      (p.denote = [] ∧ VisitsC (gt.Quiet ∧ p.Quiet) V.1.ops V.2 []) ∨
        ∃ pre x post, p.denote = pre ++ x :: post ∧ VisitsC (gt.Quiet ∧ p.Quiet) V.1.ops V.2 (x :: post) ∧ IsLastMax gt.value pre x post :=
  ((C116_view p hp).mono (fun x : gt.Quiet ∧ p.Quiet => x.2) fun _ e => e).bind fun B v =>
    (maxC_post (quiet := gt.Quiet ∧ p.Quiet) (fun x => x.1) hs (v.mono fun x => x.2) (Nat.lt_succ_of_le (p.length_le hp))).bind fun _ h => Post.pure h

/-- **C117**, `starts_with`: whether the first elements, as many as the prefix has, are equal to those of the prefix. -/
theorem C117_starts_with (p : PipeC τ ρ) (p' : PipeC τ π) (hp : p.Fits D) (hp' : p'.Fits D) (q : Fn τ (ρ × π) Bool) :
    Post (q.Quiet ∧ p.Quiet ∧ p'.Quiet) (onViews D p p' fun A B => startsWithC A.ops B.ops q (D + 1) p'.denote.length A.first B.first)
      (· = sameBy q.value (p.denote.take p'.denote.length) p'.denote) :=
  onViews_post p p' hp hp' fun _ _ v w hl => equalC_post (fun x => x.1) (takeC_visits _ v) w (by rw [List.length_take]; omega)

/-! ## Cases -/

/-- `1, 3, 4, 7, 7, 9`. -/
def someSorted : PipeC Nat Nat := .elements [1, 3, 4, 7, 7, 9]

/-- The hypotheses of the theorems. -/
example : someSorted.Fits 6 ∧ SortedBy ltFn.value someSorted.denote ∧ ¬ ltFn.Quiet ∧ (Algo.StrictWeak fun a b => ltFn.value (a, b)) :=
  ⟨Nat.le_refl 6, by simp [SortedBy, someSorted, PipeC.denote, ltFn], fun h => h (1, 2) 6 rfl,
    ⟨fun h => by simp [ltFn] at h ⊢; omega, fun h1 h2 => by simp [ltFn] at h1 h2 ⊢; omega⟩⟩

example : Partitioned (fun x => decide (x < 5)) someSorted.denote := ⟨[1, 3, 4], [7, 7, 9], rfl, by decide, by decide⟩

example : (lowerBoundC (elementsC [1, 3, 4, 7, 7, 9]) ltFn 7 6 0).result 0 = some 3 := by decide +kernel
example : (upperBoundC (elementsC [1, 3, 4, 7, 7, 9]) ltFn 7 6 0).result 0 = some 5 := by decide +kernel
example : (upperBoundC (elementsC [1, 3, 4, 7, 7, 9]) ltFn 7 6 0).result 5 = none := by decide +kernel
example : (binarySearchC (elementsC [1, 3, 4, 7, 7, 9]) ltFn 4 6 0).result 0 = some true := by decide +kernel
example : (binarySearchC (elementsC [1, 3, 4, 7, 7, 9]) ltFn 5 6 0).result 0 = some false := by decide +kernel
example : (isSortedC (elementsC [1, 3, 4, 7, 7, 9]) ltFn 7 0).result 0 = some true := by decide +kernel
example : (isSortedC (elementsC [1, 3, 2]) ltFn 7 0).result 0 = some false := by decide +kernel
example : (isPartitionedC (elementsC [1, 3, 4, 8]) oddFn 7 0).result 0 = some true := by decide +kernel
example : (isPartitionedC (elementsC [1, 4, 3]) oddFn 7 0).result 0 = some false := by decide +kernel
example : (startsWithC (elementsC [1, 3, 4]) (elementsC [1, 5]) sameFn 7 2 0 0).result 0 = some true := by decide +kernel
example : (startsWithC (elementsC [1]) (elementsC [1, 5]) sameFn 7 2 0 0).result 0 = some false := by decide +kernel

/-- Greater; the call whose number is a multiple of seven throws. -/
def gtFn : Fn Nat (Nat × Nat) Bool where
  run a t := (if t % 7 = 6 then none else some (decide (a.2 < a.1)), t + 1)
  value a := decide (a.2 < a.1)
  agrees a t b h := by
    dsimp only at h
    split at h
    · exact absurd h (by simp)
    · exact (Option.some.inj h).symm

example : (maxC (elementsC [1, 9, 4, 9, 7]) gtFn 7 0).result 0 = some 3 := by decide +kernel
example : (maxC (elementsC [1, 9, 4, 9, 7]) gtFn 7 0).result 3 = none := by decide +kernel

end Verif.Views.Calling
