import Verif.Algo.Calls
import Verif.Algo.Sort

/-!
# Rearranging algorithms and the function objects they are given (C78, C79)

The algorithms that move elements, with arbitrary function objects as in `Calls.lean`: at each call the tree says what is in memory at that
moment.
-/

namespace Verif.Algo

open Prog

variable {α S Q R R' τ : Type}

namespace Prog

/-- `P` holds of the memory whenever the function object is called; a result is as in `post`, which also gets the number of calls. If
`strict` nothing undefined happens, otherwise nothing is said about what comes after something undefined. -/
def Fine (strict : Bool) (P : S → Prop) (post : Nat → R → Prop) : Nat → Ask S Q (Option R) → Prop
  | _, .done none => strict = false
  | n, .done (some r) => post n r
  | n, .ask s _ k => P s ∧ ∀ b, Fine strict P post (n + 1) (k b)

variable {strict : Bool} {P P' : S → Prop}

theorem Fine.mono {post post' : Nat → R → Prop} (hP : ∀ s, P s → P' s) (hp : ∀ n r, post n r → post' n r) : ∀ {a : Ask S Q (Option R)} {n : Nat},
    Fine strict P post n a → Fine strict P' post' n a
  | .done none, _, H => H
  | .done (some _), _, H => hp _ _ H
  | .ask _ _ _, _, H => ⟨hP _ H.1, fun b => Fine.mono hP hp (H.2 b)⟩

theorem Fine.weaken {post : Nat → R → Prop} : ∀ {a : Ask S Q (Option R)} {n : Nat}, Fine true P post n a → Fine strict P post n a
  | .done none, _, H => by cases H
  | .done (some _), _, H => H
  | .ask _ _ _, _, H => ⟨H.1, fun b => Fine.weaken (H.2 b)⟩

theorem Fine.bind {post : Nat → R' → Prop} {g : R → Prog S Q R'} : ∀ {a : Ask S Q (Option R)} {n : Nat},
    Fine strict P (fun n r => Fine strict P post n (g r)) n a → Fine strict P post n (Prog.bind a g)
  | .done none, _, H => H
  | .done (some _), _, H => H
  | .ask _ _ _, _, H => ⟨H.1, fun b => Fine.bind (H.2 b)⟩

theorem Fine.seq {post : Nat → R' → Prop} {g : R → Prog S Q R'} {a : Prog S Q R} {n : Nat}
    (H : Fine strict P (fun n r => Fine strict P post n (g r)) n a) : Fine strict P post n (a >>= g : Prog S Q R') := Fine.bind H

theorem Fine.lift {post : Nat → R → Prop} {x : Option R} {n : Nat} (h0 : strict = true → x ≠ none) (h : ∀ r, x = some r → post n r) :
    Fine (Q := Q) strict P post n (lift x) := by
  cases x with
  | none => cases strict with
    | false => rfl
    | true => exact absurd rfl (h0 rfl)
  | some r => exact h r rfl

/-- Something that works out. -/
theorem Fine.lift' {post : Nat → R → Prop} {x : Option R} {r : R} {n : Nat} (h0 : x = some r) (h : post n r) : Fine (Q := Q) strict P post n (Prog.lift x) := by
  subst h0; exact h

theorem Fine.pure {post : Nat → R → Prop} {r : R} {n : Nat} (h : post n r) : Fine (Q := Q) strict P post n (Pure.pure r : Prog S Q R) := h

theorem Fine.call {post : Nat → Bool → Prop} {s : S} {q : Q} {n : Nat} (hs : P s) (h : ∀ b, post (n + 1) b) : Fine strict P post n (Prog.call s q) :=
  ⟨hs, fun b => h b⟩

/-- What is claimed of a run that ended. -/
def Outcome (strict : Bool) (P : S → Prop) (post : Nat → R → Prop) (e : Ask.Ending S (Option R) × List (Q × Bool)) : Prop :=
  Ask.Ends (fun _ s => P s) (fun c r => match r with | none => strict = false | some x => post c.length x) e

theorem Fine.exec {post : Nat → R → Prop} {f : τ → Q → Option (Bool × τ)} : ∀ {a : Ask S Q (Option R)} {t : τ} {n : Nat}, Fine strict P post n a →
    Outcome strict P (fun k r => post (n + k) r) (a.exec f t)
  | .done none, t, n, H => H
  | .done (some r), t, n, H => H
  | .ask s q k, t, n, H => by
    unfold Ask.exec Outcome
    cases e : f t q with
    | none => exact H.1
    | some x =>
      obtain ⟨b, t'⟩ := x
      have := Fine.exec (f := f) (t := t') (H.2 b)
      simp only [Outcome, Ask.Ends, List.length_cons] at this ⊢
      simpa only [show ∀ c, n + 1 + c = n + (c + 1) from fun c => by omega] using this

end Prog

/-- Answers that do not contradict `f`: the function object may have state and throw, but if it answers, then as `f`. -/
def Honest (f : Q → Bool) (g : τ → Q → Option (Bool × τ)) : Prop := ∀ t q b t', g t q = some (b, t') → b = f q

/-- A run with such a function object that returns has the result for `f`, and asked what it asks with `f`. -/
theorem Ask.exec_honest {f : Q → Bool} {g : τ → Q → Option (Bool × τ)} (hg : Honest f g) : ∀ {a : Ask S Q R} {t : τ} {r : R} {c : List (Q × Bool)},
    a.exec g t = (.returned r, c) → r = a.run f ∧ c = (a.calls f).map fun q => (q, f q)
  | .done r', t, r, c, h => by
    simp only [Ask.exec, Prod.mk.injEq, Ask.Ending.returned.injEq] at h
    exact ⟨h.1.symm, h.2.symm⟩
  | .ask s q k, t, r, c, h => by
    unfold Ask.exec at h
    cases e : g t q with
    | none => rw [e] at h; simp at h
    | some x =>
      obtain ⟨b, t'⟩ := x
      rw [e] at h
      simp only [Prod.mk.injEq] at h
      have hb := hg _ _ _ _ e
      subst hb
      obtain ⟨h1, h2⟩ := Ask.exec_honest hg (a := k (f q)) (t := t') (r := r) (c := (Ask.exec g t' (k (f q))).2) (Prod.ext h.1 rfl)
      exact ⟨h1, by rw [← h.2, h2]; rfl⟩

/-! ## The model -/

/-- The function object called while `m` is in memory. -/
abbrev ask1 (m : Mem α) (x : α) : Prog (Mem α) α Bool := call m x

/-- The comparison called while `m` is in memory. -/
abbrev ask2 (m : Mem α) (x y : α) : Prog (Mem α) (α × α) Bool := call m (x, y)

/-- `advance_last`, with `last` being `n` elements after `first` (`partition.cpp` 71-78). -/
def advanceLastA (m : Mem α) (first : Nat) : Nat → Prog (Mem α) α Nat
  | 0 => pure first
  | n + 1 => do
    let v ← .lift (m (first + n))
    let b ← ask1 m v
    if b then pure (first + n) else advanceLastA m first n

/-- The loop over ranges that can be walked from both ends (`partition.cpp` 81-88). -/
def partitionLoopA : Nat → Mem α → Nat → Nat → Prog (Mem α) α (Mem α × Nat)
  | 0, _, _, _ => .lift none
  | f + 1, m, first, last =>
    if first = last then pure (m, first)
    else do
      let m ← .lift (m.swapAt first last)
      let first ← findIfNotA m (ask1 m) first last
      if first = last then pure (m, first)
      else do
        let last ← advanceLastA m first (last - first)
        partitionLoopA f m first last

/-- The loop over ranges that can only be walked forwards; `it` is `n` elements before the end (`partition.cpp` 93-98). -/
def partitionForwardA : Nat → Mem α → Nat → Nat → Prog (Mem α) α (Mem α × Nat)
  | 0, m, first, _ => pure (m, first)
  | n + 1, m, first, it => do
    let v ← .lift (m it)
    let b ← ask1 m v
    if b then do
      let m ← .lift (m.swapAt it first)
      partitionForwardA n m (first + 1) (it + 1)
    else partitionForwardA n m first (it + 1)

/-- `partition` (`partition.cpp` 62-101); `bidir` says whether `last` can be decremented. -/
def partitionA (bidir : Bool) (m : Mem α) (first last : Nat) : Prog (Mem α) α (Mem α × Nat) := do
  let first ← findIfNotA m (ask1 m) first last
  if bidir then do
    let last ← advanceLastA m first (last - first)
    partitionLoopA (last - first + 1) m first last
  else if first = last then pure (m, first)
  else partitionForwardA (last - first - 1) m first (first + 1)

/-- The loop of `iterator_partition` (`partition.cpp` 117-132). -/
def iteratorPartitionLoopA : Nat → Mem α → Nat → Nat → Nat → Prog (Mem α) (α × α) (Mem α × Nat)
  | 0, _, _, _, _ => .lift none
  | f + 1, m, first, middle, last => do
    let v ← .lift (m middle)
    let first ← findIfNotA m (fun x => ask2 m x v) first middle
    if first = last then pure (m, first)
    else do
      let l ← findLastIfA m (fun x => ask2 m x v) (first + 1) last
      if l = last then pure (m, first)
      else do
        let m ← .lift (m.swapAt first l)
        iteratorPartitionLoopA f m (first + 1) (if first = middle then l else middle) l

/-- `iterator_partition` (`partition.cpp` 112-135). -/
def iteratorPartitionA (m : Mem α) (first middle last : Nat) : Prog (Mem α) (α × α) (Mem α × Nat) :=
  if first ≠ last ∧ middle = last then .lift none
  else if first = last then (if middle = first then pure (m, first) else .lift none)
  else iteratorPartitionLoopA (last - first + 1) m first middle last

/-- The routines for a fixed number of elements, as trees of comparisons (`sort_exactly_2.cpp` to `sort_exactly_5.cpp`). -/
def Tree.runA (ad : Nat → Nat) (m : Mem α) : Tree → Prog (Mem α) (α × α) (Mem α)
  | .done ps => .lift (runPrims ad m ps)
  | .ask i j yes no => do
    let x ← .lift (m (ad i))
    let y ← .lift (m (ad j))
    let b ← ask2 m x y
    if b then yes.runA ad m else no.runA ad m

/-- A tree, if there is one. -/
def Tree.runA? (ad : Nat → Nat) (m : Mem α) : Option Tree → Prog (Mem α) (α × α) (Mem α)
  | none => .lift none
  | some t => t.runA ad m

/-- `sort_exactly_n_in_place` (`sort_exactly_n.cpp` 29-33). -/
def sortExactlyInPlaceA (m : Mem α) (it n temp : Nat) : Prog (Mem α) (α × α) (Mem α) := Tree.runA? (inPlaceAt it n temp) m (inPlaceTree n)

/-- `sort_exactly_n_relocate` (`sort_exactly_n.cpp` 36-41). -/
def sortExactlyRelocateA (cheap : Bool) (m : Mem α) (it n out : Nat) : Prog (Mem α) (α × α) (Mem α) :=
  Tree.runA? (relocateFrom it n out) m (relocateTree cheap n)

/-- `sort_exactly_n` (`sort_exactly_n.cpp` 44-53). -/
def sortExactlyA (cheap : Bool) (m : Mem α) (it n temp : Nat) : Prog (Mem α) (α × α) (Mem α) :=
  if cheap = true ∧ n ≤ 4 then do
    let m ← sortExactlyRelocateA cheap m it n temp
    .lift (m.relocateRange temp it n)
  else
    sortExactlyInPlaceA m it n temp

/-- `do_sort` (`small_size_optimized_sort.cpp` 32-39). -/
def doSortA (cheap : Bool) (m : Mem α) (first n temp : Nat) : Prog (Mem α) (α × α) (Mem α) := do
  let m ← sortExactlyA cheap m first n temp
  let b ← isSortedA m (ask2 m) first n
  if b then pure m else .lift none

/-- `small_size_optimized_sort` (`small_size_optimized_sort.cpp` 28-64). -/
def smallSortA (cheap : Bool) (temp : Nat) (large : Mem α → Nat → Nat → Prog (Mem α) (α × α) (Mem α)) (m : Mem α) (first n : Nat) :
    Prog (Mem α) (α × α) (Mem α) :=
  if n ≤ 1 then pure m
  else if n ≤ 5 then doSortA cheap m first n temp
  else large m first n

/-- The selection of the pivot (`sort.cpp` 63-67). -/
def sortMediansA (temp : Nat) (m : Mem α) (first n : Nat) : Prog (Mem α) (α × α) (Mem α) :=
  if n ≥ 1000 then inPlace5.runA (median5 first n temp) m else inPlace3.runA (median3 first n temp) m

/-- `introsort` and `introsort_impl` with the remaining depth (`sort.cpp` 45-77). -/
def introsortA (cheap : Bool) (temp : Nat) (heap : Mem α → Nat → Nat → Prog (Mem α) (α × α) (Mem α)) :
    Nat → Mem α → Nat → Nat → Prog (Mem α) (α × α) (Mem α)
  | 0, m, first, n => smallSortA cheap temp heap m first n
  | depth + 1, m, first, n => smallSortA cheap temp (fun m first n => do
      let m ← sortMediansA temp m first n
      let r ← iteratorPartitionA m first (first + n / 2) (first + n)
      let m ← introsortA cheap temp heap depth r.1 first (r.2 - first)
      introsortA cheap temp heap depth m r.2 (first + n - r.2)) m first n

/-- `new_sort` (`sort.cpp` 79-92). -/
def newSortA (cheap : Bool) (temp : Nat) (heap : Mem α → Nat → Nat → Prog (Mem α) (α × α) (Mem α)) (m : Mem α) (first n : Nat) :
    Prog (Mem α) (α × α) (Mem α) := do
  let m ← introsortA cheap temp heap (2 * Nat.log2 n) m first n
  let b ← isSortedA m (ask2 m) first n
  if b then pure m else .lift none

/-- The loop of `merge_relocate_second_range` (`merge_relocate_second_range.cpp` 46-62). -/
def mergeBackLoopA (first1 first2 : Nat) : Nat → Mem α → Nat → Nat → Nat → Prog (Mem α) (α × α) (Mem α)
  | 0, _, _, _, _ => .lift none
  | f + 1, m, last1, last2, out => do
    let y ← .lift (m last2)
    let x ← .lift (m last1)
    let b ← ask2 m y x
    if b then do
      let m ← .lift (m.relocateAt (out - 1) last1)
      if first1 = last1 then .lift (m.relocateRange first2 first1 (last2 - first2))
      else mergeBackLoopA first1 first2 f m (last1 - 1) last2 (out - 1)
    else do
      let m ← .lift (m.relocateAt (out - 1) last2)
      if first2 = last2 then pure m
      else mergeBackLoopA first1 first2 f m last1 (last2 - 1) (out - 1)

/-- `merge_relocate_second_range` (`merge_relocate_second_range.cpp` 31-63). -/
def mergeRelocateSecondA (m : Mem α) (first1 last1 first2 last2 out : Nat) : Prog (Mem α) (α × α) (Mem α) :=
  if first2 = last2 then .lift none
  else if first1 = last1 then .lift (m.relocateRange first2 first1 (last2 - first2))
  else mergeBackLoopA first1 first2 (last1 - first1 + (last2 - first2)) m (last1 - 1) (last2 - 1) out

/-- The loop of `fixed_size_merge_sort` (`fixed_size_merge_sort.cpp` 32-49). -/
def mergeFrontLoopA (last1 last2 : Nat) : Nat → Mem α → Nat → Nat → Nat → Prog (Mem α) (α × α) (Mem α)
  | 0, _, _, _, _ => .lift none
  | f + 1, m, it, first1, first2 => do
    let y ← .lift (m first2)
    let x ← .lift (m first1)
    let b ← ask2 m y x
    if b then do
      let m ← .lift (m.relocateAt it first2)
      if first2 + 1 = last2 then .lift (m.relocateRange first1 (it + 1) (last1 - first1))
      else mergeFrontLoopA last1 last2 f m (it + 1) first1 (first2 + 1)
    else do
      let m ← .lift (m.relocateAt it first1)
      if first1 + 1 = last1 then pure m
      else mergeFrontLoopA last1 last2 f m (it + 1) (first1 + 1) first2

/-- `fixed_size_merge_sort` (`fixed_size_merge_sort.cpp` 21-50). -/
def fixedSizeMergeSortA (cheap : Bool) (m : Mem α) (it size1 size2 buffer temp : Nat) : Prog (Mem α) (α × α) (Mem α) := do
  let m ← sortExactlyA cheap m (it + size1) size2 temp
  let m ← sortExactlyRelocateA cheap m it size1 buffer
  mergeFrontLoopA (buffer + size1) (it + size1 + size2) (size1 + size2) m it buffer (it + size1)

/-- The loop of `chunked_insertion_sort` with `k` chunks to go (`chunked_insertion_sort.cpp` 46-55). -/
def chunkLoopA (cheap : Bool) (first buffer : Nat) : Nat → Mem α → Nat → Prog (Mem α) (α × α) (Mem α)
  | 0, m, _ => pure m
  | k + 1, m, it => do
    let m ← sortExactlyRelocateA cheap m it 4 buffer
    let m ← mergeRelocateSecondA m first it buffer (buffer + 4) (it + 4)
    chunkLoopA cheap first buffer k m (it + 4)

/-- `chunked_insertion_sort` (`chunked_insertion_sort.cpp` 34-57). -/
def chunkedInsertionSortA (cheap : Bool) (m : Mem α) (first n buffer temp : Nat) : Prog (Mem α) (α × α) (Mem α) := do
  let m ← smallSortA cheap temp (fun _ _ _ => .lift none) m first (n % 4)
  chunkLoopA cheap first buffer (n / 4) m (first + n % 4)

/-! ## With a function, this is the model of the other files -/

section Run

theorem ask1_run (f : α → Bool) (m : Mem α) (x : α) : (ask1 m x).run f = some (f x) := rfl

/-- The function on pairs that the comparison is. -/
abbrev uncurry2 (lt : α → α → Bool) : α × α → Bool := fun q => lt q.1 q.2

theorem ask2_run (lt : α → α → Bool) (m : Mem α) (x y : α) : (ask2 m x y).run (uncurry2 lt) = some (lt x y) := rfl

theorem advanceLastA_run (f : α → Bool) (m : Mem α) (first : Nat) : ∀ n, (advanceLastA m first n).run f = advanceLast m f first n
  | 0 => rfl
  | n + 1 => by simp [advanceLastA, advanceLast, run_ite, advanceLastA_run f m first n]

theorem partitionLoopA_run (f : α → Bool) : ∀ n (m : Mem α) first last, (partitionLoopA n m first last).run f = partitionLoop f n m first last
  | 0, _, _, _ => rfl
  | n + 1, m, first, last => by
    simp only [partitionLoopA, partitionLoop, run_ite, Prog.run_bind, Prog.run_lift, Prog.run_pure, findIfNotA_run (ask1_run f _), advanceLastA_run,
      partitionLoopA_run f n]
    rfl

theorem partitionForwardA_run (f : α → Bool) : ∀ n (m : Mem α) first it, (partitionForwardA n m first it).run f = partitionForward f n m first it
  | 0, _, _, _ => rfl
  | n + 1, m, first, it => by
    simp only [partitionForwardA, partitionForward, run_ite, Prog.run_bind, Prog.run_lift, ask1_run, partitionForwardA_run f n]
    rfl

theorem partitionA_run (f : α → Bool) (bidir : Bool) (m : Mem α) (first last : Nat) : (partitionA bidir m first last).run f = partition bidir m f first last := by
  simp only [partitionA, partition, run_ite, Prog.run_bind, Prog.run_pure, findIfNotA_run (ask1_run f _), advanceLastA_run, partitionLoopA_run, partitionForwardA_run]
  rfl

variable (lt : α → α → Bool)

theorem iteratorPartitionLoopA_run : ∀ n (m : Mem α) first middle last,
    (iteratorPartitionLoopA n m first middle last).run (uncurry2 lt) = iteratorPartitionLoop lt n m first middle last
  | 0, _, _, _, _ => rfl
  | n + 1, m, first, middle, last => by
    have h1 : ∀ (v : α) a b, (findIfNotA m (fun x => ask2 m x v) a b).run (uncurry2 lt) = findIfNot m (fun x => lt x v) a b :=
      fun v a b => findIfNotA_run (fun x => ask2_run lt m x v) a b
    have h2 : ∀ (v : α) a b, (findLastIfA m (fun x => ask2 m x v) a b).run (uncurry2 lt) = findLastIf m (fun x => lt x v) a b :=
      fun v a b => findLastIfA_run (fun x => ask2_run lt m x v) a b
    simp only [iteratorPartitionLoopA, iteratorPartitionLoop, run_ite, Prog.run_bind, Prog.run_lift, Prog.run_pure, h1, h2, iteratorPartitionLoopA_run n]
    rfl

theorem iteratorPartitionA_run (m : Mem α) (first middle last : Nat) :
    (iteratorPartitionA m first middle last).run (uncurry2 lt) = iteratorPartition lt m first middle last := by
  simp only [iteratorPartitionA, iteratorPartition, run_ite, Prog.run_lift, Prog.run_pure, iteratorPartitionLoopA_run]

theorem Tree.runA_run (ad : Nat → Nat) (m : Mem α) : ∀ t : Tree, (t.runA ad m).run (uncurry2 lt) = t.run lt ad m
  | .done _ => rfl
  | .ask i j yes no => by
    simp only [Tree.runA, Tree.run, run_ite, Prog.run_bind, Prog.run_lift, ask2_run, Tree.runA_run ad m yes, Tree.runA_run ad m no]
    rfl

theorem Tree.runA?_run (ad : Nat → Nat) (m : Mem α) (t : Option Tree) : (Tree.runA? ad m t).run (uncurry2 lt) = t.bind fun t => t.run lt ad m := by
  cases t with
  | none => rfl
  | some t => exact Tree.runA_run lt ad m t

theorem sortExactlyA_run (cheap : Bool) (m : Mem α) (it n temp : Nat) : (sortExactlyA cheap m it n temp).run (uncurry2 lt) = sortExactly cheap lt m it n temp := by
  simp only [sortExactlyA, sortExactly, sortExactlyRelocateA, sortExactlyRelocate, sortExactlyInPlaceA, sortExactlyInPlace, run_ite, Prog.run_bind, Prog.run_lift,
    Tree.runA?_run]
  rfl

theorem sortExactlyRelocateA_run (cheap : Bool) (m : Mem α) (it n out : Nat) :
    (sortExactlyRelocateA cheap m it n out).run (uncurry2 lt) = sortExactlyRelocate cheap lt m it n out := Tree.runA?_run lt _ _ _

theorem doSortA_run (cheap : Bool) (m : Mem α) (first n temp : Nat) : (doSortA cheap m first n temp).run (uncurry2 lt) = doSort cheap lt m first n temp := by
  have h : ∀ m : Mem α, (isSortedA m (ask2 m) first n).run (uncurry2 lt) = isSorted m lt first n := fun m => isSortedA_run (ask2_run lt m) first n
  simp only [doSortA, doSort, run_ite, Prog.run_bind, Prog.run_lift, Prog.run_pure, sortExactlyA_run, h]
  rfl

theorem smallSortA_run (cheap : Bool) (temp : Nat) {largeA : Mem α → Nat → Nat → Prog (Mem α) (α × α) (Mem α)} {large : Mem α → Nat → Nat → Option (Mem α)}
    (m : Mem α) (first n : Nat) (hl : (largeA m first n).run (uncurry2 lt) = large m first n) :
    (smallSortA cheap temp largeA m first n).run (uncurry2 lt) = smallSort cheap lt temp large m first n := by
  simp only [smallSortA, smallSort, run_ite, Prog.run_pure, doSortA_run, hl]

theorem sortMediansA_run (temp : Nat) (m : Mem α) (first n : Nat) : (sortMediansA temp m first n).run (uncurry2 lt) = sortMedians lt temp m first n := by
  simp only [sortMediansA, sortMedians, run_ite, Tree.runA_run]

theorem introsortA_run (cheap : Bool) (temp : Nat) {heapA : Mem α → Nat → Nat → Prog (Mem α) (α × α) (Mem α)} {heap : Mem α → Nat → Nat → Option (Mem α)}
    (hh : ∀ m first n, (heapA m first n).run (uncurry2 lt) = heap m first n) : ∀ d m first n,
    (introsortA cheap temp heapA d m first n).run (uncurry2 lt) = introsort cheap lt temp heap d m first n
  | 0, m, first, n => smallSortA_run lt cheap temp m first n (hh m first n)
  | d + 1, m, first, n => by
    refine smallSortA_run lt cheap temp m first n ?_
    simp only [Prog.run_bind, sortMediansA_run, iteratorPartitionA_run, introsortA_run cheap temp hh d]
    rfl

theorem newSortA_run (cheap : Bool) (temp : Nat) {heapA : Mem α → Nat → Nat → Prog (Mem α) (α × α) (Mem α)} {heap : Mem α → Nat → Nat → Option (Mem α)}
    (hh : ∀ m first n, (heapA m first n).run (uncurry2 lt) = heap m first n) (m : Mem α) (first n : Nat) :
    (newSortA cheap temp heapA m first n).run (uncurry2 lt) = newSort cheap lt temp heap m first n := by
  have h : ∀ m : Mem α, (isSortedA m (ask2 m) first n).run (uncurry2 lt) = isSorted m lt first n := fun m => isSortedA_run (ask2_run lt m) first n
  simp only [newSortA, newSort, run_ite, Prog.run_bind, Prog.run_lift, Prog.run_pure, introsortA_run lt cheap temp hh, h]
  rfl

theorem mergeBackLoopA_run (first1 first2 : Nat) : ∀ f (m : Mem α) last1 last2 out,
    (mergeBackLoopA first1 first2 f m last1 last2 out).run (uncurry2 lt) = mergeBackLoop lt first1 first2 f m last1 last2 out
  | 0, _, _, _, _ => rfl
  | f + 1, m, last1, last2, out => by
    simp only [mergeBackLoopA, mergeBackLoop, run_ite, Prog.run_bind, Prog.run_lift, Prog.run_pure, ask2_run, mergeBackLoopA_run first1 first2 f]
    rfl

theorem mergeRelocateSecondA_run (m : Mem α) (first1 last1 first2 last2 out : Nat) :
    (mergeRelocateSecondA m first1 last1 first2 last2 out).run (uncurry2 lt) = mergeRelocateSecond lt m first1 last1 first2 last2 out := by
  simp only [mergeRelocateSecondA, mergeRelocateSecond, run_ite, Prog.run_lift, mergeBackLoopA_run]

theorem mergeFrontLoopA_run (last1 last2 : Nat) : ∀ f (m : Mem α) it first1 first2,
    (mergeFrontLoopA last1 last2 f m it first1 first2).run (uncurry2 lt) = mergeFrontLoop lt last1 last2 f m it first1 first2
  | 0, _, _, _, _ => rfl
  | f + 1, m, it, first1, first2 => by
    simp only [mergeFrontLoopA, mergeFrontLoop, run_ite, Prog.run_bind, Prog.run_lift, Prog.run_pure, ask2_run, mergeFrontLoopA_run last1 last2 f]
    rfl

theorem fixedSizeMergeSortA_run (cheap : Bool) (m : Mem α) (it size1 size2 buffer temp : Nat) :
    (fixedSizeMergeSortA cheap m it size1 size2 buffer temp).run (uncurry2 lt) = fixedSizeMergeSort cheap lt m it size1 size2 buffer temp := by
  simp only [fixedSizeMergeSortA, fixedSizeMergeSort, Prog.run_bind, sortExactlyA_run, sortExactlyRelocateA_run, mergeFrontLoopA_run]
  rfl

theorem chunkLoopA_run (cheap : Bool) (first buffer : Nat) : ∀ k (m : Mem α) it,
    (chunkLoopA cheap first buffer k m it).run (uncurry2 lt) = chunkLoop cheap lt first buffer k m it
  | 0, _, _ => rfl
  | k + 1, m, it => by
    simp only [chunkLoopA, chunkLoop, Prog.run_bind, sortExactlyRelocateA_run, mergeRelocateSecondA_run, chunkLoopA_run cheap first buffer k]
    rfl

theorem chunkedInsertionSortA_run (cheap : Bool) (m : Mem α) (first n buffer temp : Nat) :
    (chunkedInsertionSortA cheap m first n buffer temp).run (uncurry2 lt) = chunkedInsertionSort cheap lt m first n buffer temp := by
  simp only [chunkedInsertionSortA, chunkedInsertionSort, Prog.run_bind, chunkLoopA_run]
  rw [smallSortA_run lt cheap temp (large := fun _ _ _ => none) m first (n % 4) rfl]
  rfl

end Run

end Verif.Algo
