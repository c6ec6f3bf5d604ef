import Verif.Algo.SortSwaps
import Mathlib.Tactic.IntervalCases

/-!
# Sorting ranges of any length when a swap throws (property C92)

`new_sort` for elements that are not cheaply sortable, with a comparison that may have state and throw and with swaps that may throw at any point.
`std::make_heap` and `std::sort_heap`, which are called when the recursion gets too deep, are only assumed to leave the elements alive if they throw.
-/

namespace Verif.Algo.Swapping

open Verif Mem

variable {α τ R R' : Type}

/-! ## Model -/

/-- How a part of an algorithm ends: with a result, the state of the comparison, the number of swaps so far and the memory; with an exception of the
comparison, of a swap, or inside of the heap functions of the standard library; or in undefined behaviour. -/
inductive Way (α τ R : Type) where
  | ok (r : R) (t : τ) (j : Nat) (m : Mem α)
  | asked (m : Mem α)
  | swapped (m : Mem α)
  | heaped (m : Mem α)
  | ub

/-- The next part. -/
def Way.next (w : Way α τ R) (k : R → τ → Nat → Mem α → Way α τ R') : Way α τ R' :=
  match w with
  | .ok r t j m => k r t j m
  | .asked m => .asked m
  | .swapped m => .swapped m
  | .heaped m => .heaped m
  | .ub => .ub

/-- A run of a program of reads, calls and swaps, as `SProg.exec`. -/
def SProg.execN (f : τ → Q → Option (Bool × τ)) (sw : Swaps α) : SProg α Q R → τ → Nat → Mem α → Way α τ R
  | .ret r, t, j, m => .ok r t j m
  | .stuck, _, _, _ => .ub
  | .get i k, t, j, m =>
    match m i with
    | none => .ub
    | some v => (k v).execN f sw t j m
  | .ask q k, t, j, m =>
    match f t q with
    | none => .asked m
    | some (b, t') => (k b).execN f sw t' j m
  | .swap a b k, t, j, m =>
    match swapX (sw j) m a b with
    | .ub => .ub
    | .exn m' => .swapped m'
    | .ok m' => k.execN f sw t (j + 1) m'

/-- The number of swaps in a leaf. -/
def swapsIn : List Prim → Nat
  | [] => 0
  | .swap _ _ :: ps => swapsIn ps + 1
  | .reloc _ _ :: ps => swapsIn ps

/-- A tree of comparisons (`sort_exactly_2.cpp` to `sort_exactly_5.cpp`), as `treeX`. -/
def treeN (f : τ → α × α → Option (Bool × τ)) (sw : Swaps α) (ad : Nat → Nat) : Tree → τ → Nat → Mem α → Way α τ Unit
  | .done ps, t, j, m =>
    match runPrimsX sw ad j m ps with
    | .ok m' => .ok () t (j + swapsIn ps) m'
    | .exn m' => .swapped m'
    | .ub => .ub
  | .ask i i' yes no, t, j, m =>
    match m (ad i), m (ad i') with
    | some x, some y =>
      match f t (x, y) with
      | none => .asked m
      | some (true, t') => treeN f sw ad yes t' j m
      | some (false, t') => treeN f sw ad no t' j m
    | _, _ => .ub

/-- The loop of `is_sorted` (`is_sorted.cpp` 21-40). -/
def isSortedLoopN (f : τ → α × α → Option (Bool × τ)) : Nat → Nat → Nat → τ → Nat → Mem α → Way α τ Bool
  | 0, _, _, t, j, m => .ok true t j m
  | n + 1, first, next, t, j, m =>
    match m next, m first with
    | some y, some x =>
      match f t (y, x) with
      | none => .asked m
      | some (true, t') => .ok false t' j m
      | some (false, t') => isSortedLoopN f n next (next + 1) t' j m
    | _, _ => .ub

/-- `BOUNDED_ASSERT(is_sorted(range, compare))`. -/
def assertSortedN (f : τ → α × α → Option (Bool × τ)) (first n : Nat) (t : τ) (j : Nat) (m : Mem α) : Way α τ Unit :=
  (if n = 0 then .ok true t j m else isSortedLoopN f (n - 1) first (first + 1) t j m : Way α τ Bool).next fun b t j m => if b then .ok () t j m else .ub

/-- `do_sort` (`small_size_optimized_sort.cpp` 32-39) with `sort_exactly_n` (`sort_exactly_n.cpp` 44-53) of elements that are not cheaply sortable. -/
def doSortN (f : τ → α × α → Option (Bool × τ)) (sw : Swaps α) (temp first n : Nat) (t : τ) (j : Nat) (m : Mem α) : Way α τ Unit :=
  (match inPlaceTree n with
    | none => .ub
    | some tree => treeN f sw (inPlaceAt first n temp) tree t j m : Way α τ Unit).next fun _ t j m => assertSortedN f first n t j m

/-- `small_size_optimized_sort` (`small_size_optimized_sort.cpp` 28-64). -/
def smallSortN (f : τ → α × α → Option (Bool × τ)) (sw : Swaps α) (temp : Nat) (large : Nat → Nat → τ → Nat → Mem α → Way α τ Unit) (first n : Nat)
    (t : τ) (j : Nat) (m : Mem α) : Way α τ Unit :=
  if n ≤ 1 then .ok () t j m
  else if n ≤ 5 then doSortN f sw temp first n t j m
  else large first n t j m

/-- The selection of the pivot (`sort.cpp` 63-67). -/
def sortMediansN (f : τ → α × α → Option (Bool × τ)) (sw : Swaps α) (temp first n : Nat) : τ → Nat → Mem α → Way α τ Unit :=
  if n ≥ 1000 then treeN f sw (median5 first n temp) inPlace5 else treeN f sw (median3 first n temp) inPlace3

/-- `introsort` and `introsort_impl` with the remaining depth (`sort.cpp` 45-77); `heap` is `heap_sort` (36-41). -/
def introsortN (f : τ → α × α → Option (Bool × τ)) (sw : Swaps α) (temp : Nat) (heap : Nat → Nat → τ → Nat → Mem α → Way α τ Unit) :
    Nat → Nat → Nat → τ → Nat → Mem α → Way α τ Unit
  | 0, first, n, t, j, m => smallSortN f sw temp heap first n t j m
  | depth + 1, first, n, t, j, m => smallSortN f sw temp (fun first n t j m =>
      (sortMediansN f sw temp first n t j m).next fun _ t j m =>
      ((iteratorPartitionS first (first + n / 2) (first + n)).execN f sw t j m).next fun median t j m =>
      (introsortN f sw temp heap depth first (median - first) t j m).next fun _ t j m =>
      introsortN f sw temp heap depth median (first + n - median) t j m) first n t j m

/-- `new_sort` (`sort.cpp` 79-92). -/
def newSortN (f : τ → α × α → Option (Bool × τ)) (sw : Swaps α) (temp : Nat) (heap : Nat → Nat → τ → Nat → Mem α → Way α τ Unit) (first n : Nat) (t : τ)
    (j : Nat) (m : Mem α) : Way α τ Unit :=
  (introsortN f sw temp heap (2 * Nat.log2 n) first n t j m).next fun _ t j m => assertSortedN f first n t j m

/-! ## Specification -/

/-- As many objects as before are alive, and nothing else has changed. -/
def Alive (first : Nat) (xs : List α) (m s : Mem α) : Prop :=
  ∃ ys : List α, ys.length = xs.length ∧ s.Seg first ys ∧ m.SameOff s (InRange first xs.length)

/-- What is assumed of `std::make_heap` followed by `std::sort_heap`: if they return, the result is that of `pure`; whatever is thrown in them, the elements
are alive. -/
def HeapKeeps (pure : Mem α → Nat → Nat → Option (Mem α)) (heap : Nat → Nat → τ → Nat → Mem α → Way α τ Unit) : Prop :=
  ∀ (m : Mem α) (first : Nat) (xs : List α) (t : τ) (j : Nat), m.Seg first xs →
    match heap first xs.length t j m with
    | .ok _ _ _ m' => pure m first xs.length = some m'
    | .heaped m' => Alive first xs m m'
    | _ => False

/-! ## Proofs -/

/-- A part that works on the range `xs` from `first` on: its result is that of the model without exceptions. -/
def Good (sw : Swaps α) (first : Nat) (xs : List α) (m : Mem α) (g : Option (Mem α × R)) : Way α τ R → Prop
  | .ok r _ _ m' => g = some (m', r) ∧ Shuffled first xs.length m m'
  | .asked m' => Shuffled first xs.length m m'
  | .swapped m' => Disturbed sw first xs m m'
  | .heaped m' => Alive first xs m m'
  | .ub => g = none

theorem Good.next {sw : Swaps α} {first : Nat} {xs : List α} {m : Mem α} {g : Option (Mem α × R)} {w : Way α τ R} (h : Good sw first xs m g w) (hx : m.Seg first xs)
    {g' : Mem α × R → Option (Mem α × R')} {k : R → τ → Nat → Mem α → Way α τ R'}
    (hk : ∀ r t j m' xs', g = some (m', r) → m'.Seg first xs' → xs'.Perm xs → Shuffled first xs.length m m' → Good sw first xs' m' (g' (m', r)) (k r t j m')) :
    Good sw first xs m (g.bind g') (w.next k) := by
  cases w with
  | asked m' => exact h
  | swapped m' => exact h
  | heaped m' => exact h
  | ub => have h : g = none := h; rw [h]; rfl
  | ok r t j m' =>
    obtain ⟨e, sh⟩ := h
    obtain ⟨xs', p, s⟩ := sh.perm xs rfl hx
    have key := hk r t j m' xs' e s p sh
    have hl := p.length_eq
    rw [e]
    show Good sw first xs m (g' (m', r)) (k r t j m')
    cases hw : k r t j m' with
    | ok r2 t2 j2 m2 => rw [hw] at key; exact ⟨key.1, sh.trans (hl ▸ key.2)⟩
    | asked m2 => rw [hw] at key; exact sh.trans (hl ▸ key)
    | ub => rw [hw] at key; exact key
    | heaped m2 =>
      rw [hw] at key
      obtain ⟨ys, y1, y2, y3⟩ := key
      exact ⟨ys, by omega, y2, sh.rest.trans (hl ▸ y3)⟩
    | swapped m2 =>
      rw [hw] at key
      obtain ⟨c, x', y', ys, a, b, k1, k2, k3, k4, k5, k6⟩ := key
      exact ⟨c, x', y', ys, a, b, k1, k2.trans p, by omega, by omega, k5, sh.rest.trans (hl ▸ k6)⟩

theorem Good.map {sw : Swaps α} {first : Nat} {xs : List α} {m : Mem α} {g g' : Option (Mem α × R)} {w : Way α τ R} (h : Good sw first xs m g w) (e : g = g') :
    Good sw first xs m g' w := e ▸ h

theorem SameOff.sub {m s : Mem α} {first a k n : Nat} (h : m.SameOff s (InRange (first + a) k)) (hk : a + k ≤ n) : m.SameOff s (InRange first n) :=
  h.mono fun x hx => ⟨by omega, by omega⟩

/-- A part of the range. -/
theorem Good.sub {sw : Swaps α} {first a : Nat} {l ys r : List α} {m : Mem α} {g : Option (Mem α × R)} {w : Way α τ R} (h : Good sw (first + a) ys m g w)
    (hx : m.Seg first (l ++ (ys ++ r))) (ha : a = l.length) : Good sw first (l ++ (ys ++ r)) m g w := by
  subst ha
  have hle : l.length + ys.length ≤ (l ++ (ys ++ r)).length := by simp
  have seg : ∀ {s : Mem α} {zs : List α}, zs.length = ys.length → s.Seg (first + l.length) zs → m.SameOff s (InRange (first + l.length) ys.length) →
      s.Seg first (l ++ (zs ++ r)) := by
    intro s zs hz hs ho
    rw [seg_append, seg_append] at hx ⊢
    refine ⟨hx.1.frame ho fun i hi => by simp only [InRange]; omega, hs, ?_⟩
    rw [hz]
    exact hx.2.2.frame ho fun i hi => by simp only [InRange]; omega
  cases w with
  | ok r2 t j m' => exact ⟨h.1, h.2.sub hle⟩
  | asked m' => exact Shuffled.sub h hle
  | ub => exact h
  | heaped m' =>
    obtain ⟨zs, z1, z2, z3⟩ := h
    exact ⟨l ++ (zs ++ r), by simp [z1], seg z1 z2 z3, SameOff.sub z3 hle⟩
  | swapped m' =>
    obtain ⟨c, x', y', zs, p, q, k1, k2, k3, k4, k5, k6⟩ := h
    have hz := k2.length_eq
    refine ⟨c, x', y', l ++ (zs ++ r), l.length + p, l.length + q, k1, (k2.append_right r).append_left l, by simp; omega, by simp; omega, ?_, SameOff.sub k6 hle⟩
    have st : ∀ (zs : List α) (p : Nat) (v : α), p < zs.length → (l ++ (zs ++ r)).set (l.length + p) v = l ++ (zs.set p v ++ r) := by
      intro zs p v hp
      rw [List.set_append_right _ _ (by omega), Nat.add_sub_cancel_left, List.set_append_left _ _ hp]
    rw [st _ _ _ (by omega), st _ _ _ (by simp; omega)]
    exact seg (by simp [hz]) k5 k6

/-! ### Programs of swaps -/

/-- Without the state of the comparison. -/
def Way.forget : Way α τ R → SProg.Ended α R
  | .ok r _ _ m => .returned r m
  | .asked m => .asked m
  | .swapped m => .swapped m
  | .heaped _ => .ub
  | .ub => .ub

theorem execN_forget (f : τ → Q → Option (Bool × τ)) (sw : Swaps α) : ∀ (p : SProg α Q R) (t : τ) (j : Nat) (m : Mem α),
    (p.execN f sw t j m).forget = p.exec f (fun i => sw (j + i)) t 0 m ∧ ∀ m', p.execN f sw t j m ≠ .heaped m' := by
  suffices H : ∀ (p : SProg α Q R) (t : τ) (j i : Nat) (m : Mem α),
      (p.execN f sw t (j + i) m).forget = p.exec f (fun i => sw (j + i)) t i m ∧ ∀ m', p.execN f sw t (j + i) m ≠ .heaped m' from fun p t j m => H p t j 0 m
  intro p
  induction p with
  | ret r => intro t j i m; exact ⟨rfl, fun _ h => by cases h⟩
  | stuck => intro t j i m; exact ⟨rfl, fun _ h => by cases h⟩
  | get a k ih =>
    intro t j i m
    unfold SProg.execN SProg.exec
    cases m a with
    | none => exact ⟨rfl, fun _ h => by cases h⟩
    | some v => exact ih v t j i m
  | ask q k ih =>
    intro t j i m
    unfold SProg.execN SProg.exec
    cases f t q with
    | none => exact ⟨rfl, fun _ h => by cases h⟩
    | some bt => exact ih bt.1 bt.2 j i m
  | swap a b k ih =>
    intro t j i m
    unfold SProg.execN SProg.exec
    cases swapX (sw (j + i)) m a b with
    | ok m' => exact ih t j (i + 1) m'
    | exn m' => exact ⟨rfl, fun _ h => by cases h⟩
    | ub => exact ⟨rfl, fun _ h => by cases h⟩

theorem Disturbed.shift {sw : Swaps α} {first : Nat} {xs : List α} {m s : Mem α} {j : Nat} (h : Disturbed (fun i => sw (j + i)) first xs m s) :
    Disturbed sw first xs m s := by
  obtain ⟨c, x', y', zs, p, q, k1, k2⟩ := h
  exact ⟨j + c, x', y', zs, p, q, k1, k2⟩

theorem iteratorPartition_good {lt : α → α → Bool} (h : StrictWeak lt) {f : τ → α × α → Option (Bool × τ)} (hf : Honest (uncurry2 lt) f) (sw : Swaps α) (t : τ) (j : Nat)
    {first c : Nat} {xs : List α} {m : Mem α} (hx : m.Seg first xs) (hc : c < xs.length) :
    Good sw first xs m (iteratorPartition lt m first (first + c) (first + xs.length)) ((iteratorPartitionS first (first + c) (first + xs.length)).execN f sw t j m) ∧
    ∀ m' r, iteratorPartition lt m first (first + c) (first + xs.length) = some (m', r) → first ≤ r ∧ r ≤ first + xs.length := by
  obtain ⟨e, hn⟩ := execN_forget f sw (iteratorPartitionS first (first + c) (first + xs.length)) t j m
  have key := C92_iterator_partition (fun x => h.irrefl x) hf (fun i => sw (j + i)) t hx (List.getElem?_eq_getElem hc)
  have rel := SProg.exec_toA f (fun i => sw (j + i)) (iteratorPartitionS first (first + c) (first + xs.length)) t 0 m .refl
  rw [iteratorPartitionS_toA] at rel
  obtain ⟨m1, ys, k, p1, p2, p3, p4⟩ := C37_iterator_partition (fun x => h.irrefl x) hx (List.getElem?_eq_getElem hc)
  refine ⟨?_, ?_⟩
  · cases hw : (iteratorPartitionS first (first + c) (first + xs.length)).execN f sw t j m with
    | heaped m' => exact absurd hw (hn m')
    | ub => rw [hw] at e; rw [← e] at key; exact key.elim
    | asked m' => rw [hw] at e; rw [← e] at key; exact key
    | swapped m' => rw [hw] at e; rw [← e] at key; exact Disturbed.shift key
    | ok r t' j' m' =>
      rw [hw] at e
      rw [← e] at key rel
      refine ⟨?_, key.1⟩
      have := Ask.exec_honest hf (a := iteratorPartitionA m first (first + c) (first + xs.length)) (t := t) (r := some (m', r))
        (c := (Ask.exec f t (iteratorPartitionA m first (first + c) (first + xs.length))).2) (Prod.ext rel rfl)
      rw [← iteratorPartitionA_run]
      exact this.1.symm
  · intro m' r er
    rw [p1] at er
    cases er
    have := p3.le
    have hl := p3.perm.length_eq
    omega

/-! ### Trees -/

theorem runPrimsX_shift (sw : Swaps α) (ad : Nat → Nat) (j : Nat) : ∀ (ps : List Prim) (i : Nat) (m : Mem α),
    runPrimsX sw ad (j + i) m ps = runPrimsX (fun i => sw (j + i)) ad i m ps := by
  intro ps
  induction ps with
  | nil => intro i m; rfl
  | cons p ps ih =>
    intro i m
    cases p with
    | reloc d s =>
      unfold runPrimsX
      cases m.relocateAt (ad d) (ad s) with
      | none => rfl
      | some m' => exact ih i m'
    | swap a b =>
      unfold runPrimsX
      congr 1
      funext m'
      exact ih (i + 1) m'

theorem treeN_forget (f : τ → α × α → Option (Bool × τ)) (sw : Swaps α) (ad : Nat → Nat) (j : Nat) (m : Mem α) : ∀ (tree : Tree) (t : τ),
    (treeN f sw ad tree t j m).forget = treeX f (fun i => sw (j + i)) ad m t tree ∧ ∀ m', treeN f sw ad tree t j m ≠ .heaped m' := by
  intro tree
  induction tree with
  | done ps =>
    intro t
    unfold treeN treeX
    rw [← runPrimsX_shift sw ad j ps 0 m, Nat.add_zero]
    cases runPrimsX sw ad j m ps <;> exact ⟨rfl, fun _ h => by cases h⟩
  | ask a b yes no ihy ihn =>
    intro t
    unfold treeN treeX
    cases m (ad a) with
    | none => exact ⟨rfl, fun _ h => by cases h⟩
    | some x =>
      cases m (ad b) with
      | none => exact ⟨rfl, fun _ h => by cases h⟩
      | some y =>
        dsimp only
        cases f t (x, y) with
        | none => exact ⟨rfl, fun _ h => by cases h⟩
        | some bt =>
          obtain ⟨b, t'⟩ := bt
          cases b with
          | true => exact ihy t'
          | false => exact ihn t'

theorem tree_good {lt : α → α → Bool} {f : τ → α × α → Option (Bool × τ)} (hf : Honest (uncurry2 lt) f) (sw : Swaps α) (t : τ) (j : Nat)
    {first temp n : Nat} {xs : List α} {m : Mem α} (hx : m.Seg first xs) (ht : m temp = none) (hn : 0 < xs.length) {ad : Nat → Nat}
    (hp : Positions first temp n xs.length ad) {tree : Tree} (et : inPlaceTree n = some tree) :
    Good sw first xs m ((tree.run lt ad m).map fun m => (m, ())) (treeN f sw ad tree t j m) := by
  obtain ⟨e, hh⟩ := treeN_forget f sw ad j m tree t
  have key := treeX_spec (hp.placed hx ht (xs[0]'hn)) f (fun i => sw (j + i)) t (inPlaceTree_moves et) (inPlaceTree_whole et)
  rw [← e] at key
  cases hw : treeN f sw ad tree t j m with
  | heaped m' => exact absurd hw (hh m')
  | ub => rw [hw] at key; exact key.elim
  | asked m' => rw [hw] at key; show Shuffled _ _ _ _; rw [key.1]; exact .refl ..
  | swapped m' => rw [hw] at key; exact Disturbed.shift (TornInto.disturbed hp hx ht key)
  | ok r t' j' m' =>
    rw [hw] at key
    refine ⟨?_, key.2.shuffled hp hx ht⟩
    have := Ask.exec_honest hf (a := tree.runA ad m) (t := t) (r := some m') (c := (Ask.exec f t (tree.runA ad m)).2) (Prod.ext key.1 rfl)
    have h2 := Tree.runA_run lt ad m tree
    rw [← h2]
    show Option.map _ (Ask.run _ _) = _
    rw [← this.1]
    rfl

/-! ### The whole -/

theorem isSortedLoopN_good {lt : α → α → Bool} {f : τ → α × α → Option (Bool × τ)} (hf : Honest (uncurry2 lt) f) (sw : Swaps α) (j : Nat) {first : Nat} {xs : List α}
    {m : Mem α} : ∀ (n a b : Nat) (t : τ), Good sw first xs m ((isSortedLoop m lt n a b).map fun r => (m, r)) (isSortedLoopN f n a b t j m) := by
  intro n
  induction n with
  | zero => intro a b t; exact ⟨rfl, .refl ..⟩
  | succ n ih =>
    intro a b t
    unfold isSortedLoop isSortedLoopN
    cases m b with
    | none => rfl
    | some y =>
      cases m a with
      | none => rfl
      | some x =>
        simp only [Option.bind_eq_bind, Option.bind_some]
        cases hq : f t (y, x) with
        | none => exact .refl ..
        | some bt =>
          obtain ⟨c, t'⟩ := bt
          have hc : c = lt y x := hf _ _ _ _ hq
          rw [← hc]
          cases c with
          | true => exact ⟨rfl, .refl ..⟩
          | false => exact ih b (b + 1) t'

theorem assertSorted_good {lt : α → α → Bool} {f : τ → α × α → Option (Bool × τ)} (hf : Honest (uncurry2 lt) f) (sw : Swaps α) (t : τ) (j : Nat)
    {first n : Nat} {xs : List α} {m : Mem α} (hx : m.Seg first xs) :
    Good sw first xs m ((isSorted m lt first n).bind fun b => if b then some (m, ()) else none) (assertSortedN f first n t j m) := by
  unfold assertSortedN isSorted
  by_cases h0 : n = 0
  · rw [if_pos h0, if_pos h0]
    exact ⟨rfl, .refl ..⟩
  · rw [if_neg h0, if_neg h0]
    have := (isSortedLoopN_good hf sw j (first := first) (xs := xs) (m := m) (n - 1) first (first + 1) t).next hx
      (g' := fun r => if r.2 then some (r.1, ()) else none) (k := fun b t j m => if b then .ok () t j m else .ub) ?_
    · refine this.map ?_
      cases isSortedLoop m lt (n - 1) first (first + 1) <;> rfl
    · intro r t j m' xs' _ _ _ _
      cases r with
      | true => exact ⟨rfl, .refl ..⟩
      | false => rfl

theorem doSort_good {lt : α → α → Bool} {f : τ → α × α → Option (Bool × τ)} (hf : Honest (uncurry2 lt) f) (sw : Swaps α) (t : τ) (j : Nat)
    {first temp : Nat} {xs : List α} {m : Mem α} (hx : m.Seg first xs) (ht : m temp = none) (hn : 0 < xs.length) :
    Good sw first xs m ((doSort false lt m first xs.length temp).map fun m => (m, ())) (doSortN f sw temp first xs.length t j m) := by
  unfold doSortN doSort sortExactly
  rw [if_neg (by simp)]
  unfold sortExactlyInPlace
  cases et : inPlaceTree xs.length with
  | none => rfl
  | some tree =>
    have h1 := tree_good hf sw t j hx ht hn (inPlaceAt_positions (it := first) (temp := temp) (n := xs.length)) et
    refine (h1.next hx (g' := fun r => (isSorted r.1 lt first xs.length).bind fun b => if b then some (r.1, ()) else none) ?_).map ?_
    · intro r t j m' xs' _ s p _
      exact assertSorted_good hf sw t j s
    · simp only [Option.bind_eq_bind, Option.bind_some]
      cases tree.run lt (inPlaceAt first xs.length temp) m with
      | none => rfl
      | some m1 =>
        simp only [Option.map_some, Option.bind_some]
        cases isSorted m1 lt first xs.length with
        | none => rfl
        | some b => cases b <;> rfl

theorem smallSort_good {lt : α → α → Bool} {f : τ → α × α → Option (Bool × τ)} (hf : Honest (uncurry2 lt) f) (sw : Swaps α) (t : τ) (j : Nat)
    {first temp : Nat} {xs : List α} {m : Mem α} (hx : m.Seg first xs) (hr : m.Raw temp 5) {large : Mem α → Nat → Nat → Option (Mem α)}
    {largeN : Nat → Nat → τ → Nat → Mem α → Way α τ Unit}
    (hl : 5 < xs.length → Good sw first xs m ((large m first xs.length).map fun m => (m, ())) (largeN first xs.length t j m)) :
    Good sw first xs m ((smallSort false lt temp large m first xs.length).map fun m => (m, ())) (smallSortN f sw temp largeN first xs.length t j m) := by
  unfold smallSortN smallSort
  by_cases h1 : xs.length ≤ 1
  · rw [if_pos h1, if_pos h1]; exact ⟨rfl, .refl ..⟩
  · rw [if_neg h1, if_neg h1]
    by_cases h5 : xs.length ≤ 5
    · rw [if_pos h5, if_pos h5]
      exact doSort_good hf sw t j hx (by simpa using hr 0 (by omega)) (by omega)
    · rw [if_neg h5, if_neg h5]
      exact hl (by omega)

theorem sortMedians_good {lt : α → α → Bool} {f : τ → α × α → Option (Bool × τ)} (hf : Honest (uncurry2 lt) f) (sw : Swaps α) (t : τ) (j : Nat)
    {first temp : Nat} {xs : List α} {m : Mem α} (hx : m.Seg first xs) (ht : m temp = none) (hn : 5 < xs.length) :
    Good sw first xs m ((sortMedians lt temp m first xs.length).map fun m => (m, ())) (sortMediansN f sw temp first xs.length t j m) := by
  unfold sortMedians sortMediansN
  split
  · exact tree_good hf sw t j hx ht (by omega) (median5_positions (by omega)) rfl
  · exact tree_good hf sw t j hx ht (by omega) (median3_positions hn) rfl

theorem heap_good {lt : α → α → Bool} {pure : Mem α → Nat → Nat → Option (Mem α)} {heap : Nat → Nat → τ → Nat → Mem α → Way α τ Unit}
    (hh : HeapKeeps pure heap) (hs : HeapSorts lt pure) (sw : Swaps α) (t : τ) (j : Nat) {first : Nat} {xs : List α} {m : Mem α} (hx : m.Seg first xs) :
    Good sw first xs m ((pure m first xs.length).map fun m => (m, ())) (heap first xs.length t j m) := by
  have key := hh m first xs t j hx
  obtain ⟨m1, ys, e, s, so, -, o⟩ := hs m first xs hx
  cases hw : heap first xs.length t j m with
  | ok r t' j' m' =>
    rw [hw] at key
    refine ⟨by rw [key]; rfl, ?_⟩
    rw [e] at key
    cases key
    exact .of_seg hx rfl so.perm s o
  | heaped m' => rw [hw] at key; exact key
  | asked m' => rw [hw] at key; exact key.elim
  | swapped m' => rw [hw] at key; exact key.elim
  | ub => rw [hw] at key; exact key.elim

theorem introsort_good {lt : α → α → Bool} (h : StrictWeak lt) {f : τ → α × α → Option (Bool × τ)} (hf : Honest (uncurry2 lt) f)
    {pure : Mem α → Nat → Nat → Option (Mem α)} {heap : Nat → Nat → τ → Nat → Mem α → Way α τ Unit} (hh : HeapKeeps pure heap) (hs : HeapSorts lt pure)
    (sw : Swaps α) {temp : Nat} : ∀ (depth : Nat) (t : τ) (j : Nat) {first : Nat} {xs : List α} {m : Mem α}, m.Seg first xs → m.Raw temp 5 →
    Good sw first xs m ((introsort false lt temp pure depth m first xs.length).map fun m => (m, ())) (introsortN f sw temp heap depth first xs.length t j m) := by
  intro depth
  induction depth with
  | zero =>
    intro t j first xs m hx hr
    exact smallSort_good hf sw t j hx hr fun _ => heap_good hh hs sw t j hx
  | succ depth ih =>
    intro t j first xs m hx hr
    refine smallSort_good hf sw t j hx hr fun hn => ?_
    have h1 := sortMedians_good hf sw t j hx (by simpa using hr 0 (by omega)) hn
    refine (h1.next hx (g' := fun r => (iteratorPartition lt r.1 first (first + xs.length / 2) (first + xs.length)).bind fun r =>
      (introsort false lt temp pure depth r.1 first (r.2 - first)).bind fun m =>
        (introsort false lt temp pure depth m r.2 (first + xs.length - r.2)).map fun m => (m, ())) ?_).map ?_
    · intro _ t j m1 xs1 _ s1 p1 sh1
      have hl1 := p1.length_eq
      have hr1 := sh1.raw hx rfl hr
      rw [← hl1]
      obtain ⟨h2, hb⟩ := iteratorPartition_good h hf sw t j s1 (c := xs1.length / 2) (by omega)
      refine h2.next s1 (g' := fun r => (introsort false lt temp pure depth r.1 first (r.2 - first)).bind fun m =>
        (introsort false lt temp pure depth m r.2 (first + xs1.length - r.2)).map fun m => (m, ())) ?_
      intro r t j m2 xs2 e2 s2 p2 sh2
      have hl2 := p2.length_eq
      have hr2 := sh2.raw s1 rfl hr1
      obtain ⟨b1, b2⟩ := hb m2 r e2
      obtain ⟨k, rfl⟩ : ∃ k, r = first + k := ⟨r - first, by omega⟩
      have hsplit : xs2 = [] ++ (xs2.take k ++ xs2.drop k) := by simp
      have htl : (xs2.take k).length = k := by simp; omega
      have s2' := s2
      rw [← List.take_append_drop k xs2, Mem.seg_append, htl] at s2'
      have h3 := ih t j s2'.1 hr2
      rw [htl] at h3
      have h3' : Good sw first xs2 m2 ((introsort false lt temp pure depth m2 first k).map fun m => (m, ())) (introsortN f sw temp heap depth first k t j m2) := by
        rw [hsplit]
        exact Good.sub (a := 0) h3 (by rw [← hsplit]; exact s2) rfl
      rw [Nat.add_sub_cancel_left]
      refine (h3'.next s2 (g' := fun r => (introsort false lt temp pure depth r.1 (first + k) (first + xs1.length - (first + k))).map fun m => (m, ())) ?_).map ?_
      · intro _ t j m3 xs3 _ s3 p3 sh3
        have hl3 := p3.length_eq
        have hr3 := sh3.raw s2 rfl hr2
        have hsplit : xs3 = xs3.take k ++ (xs3.drop k ++ []) := by simp
        have htl : (xs3.take k).length = k := by simp; omega
        have hdl : (xs3.drop k).length = first + xs1.length - (first + k) := by simp; omega
        have s3' := s3
        rw [← List.take_append_drop k xs3, Mem.seg_append, htl] at s3'
        have h4 := ih t j s3'.2 hr3
        rw [hdl] at h4
        rw [hsplit]
        exact Good.sub h4 (by rw [← hsplit]; exact s3) htl.symm
      · dsimp only
        cases introsort false lt temp pure depth m2 first k <;> rfl
    · cases sortMedians lt temp m first xs.length with
      | none => rfl
      | some m1 =>
        simp only [Option.map_some, Option.bind_some, Option.bind_eq_bind]
        cases iteratorPartition lt m1 first (first + xs.length / 2) (first + xs.length) with
        | none => rfl
        | some r =>
          simp only [Option.bind_some]
          cases introsort false lt temp pure depth r.1 first (r.2 - first) <;> rfl

/-- **C92**, `new_sort` of any range of elements that are not cheaply sortable: wherever the comparison or a swap throws, nothing undefined happens and nothing
outside of the range changes. If the comparison throws, the elements are in some order in the range; if a swap throws, they are in some order and two of them
are what that swap has left; if the heap functions of the standard library throw, all elements are alive. Otherwise the range is sorted. -/
theorem C92_new_sort {lt : α → α → Bool} (h : StrictWeak lt) {f : τ → α × α → Option (Bool × τ)} (hf : Honest (uncurry2 lt) f)
    {pure : Mem α → Nat → Nat → Option (Mem α)} {heap : Nat → Nat → τ → Nat → Mem α → Way α τ Unit} (hh : HeapKeeps pure heap) (hs : HeapSorts lt pure)
    (sw : Swaps α) (t : τ) {temp first : Nat} {xs : List α} {m : Mem α} (hx : m.Seg first xs) (hr : m.Raw temp 5) :
    match newSortN f sw temp heap first xs.length t 0 m with
    | .ok _ _ _ m' => ∃ ys, m'.Seg first ys ∧ IsSort lt xs ys ∧ m.SameOff m' (InRange first xs.length)
    | .asked m' => Shuffled first xs.length m m'
    | .swapped m' => Disturbed sw first xs m m'
    | .heaped m' => Alive first xs m m'
    | .ub => False := by
  have h1 := introsort_good h hf hh hs sw (2 * Nat.log2 xs.length) t 0 hx hr
  have h2 : Good sw first xs m ((newSort false lt temp pure m first xs.length).map fun m => (m, ())) (newSortN f sw temp heap first xs.length t 0 m) := by
    refine (h1.next hx (g' := fun r => (isSorted r.1 lt first xs.length).bind fun b => if b then some (r.1, ()) else none) ?_).map ?_
    · intro _ t j m' xs' _ s _ _
      exact assertSorted_good hf sw t j s
    · unfold newSort
      cases introsort false lt temp pure (2 * Nat.log2 xs.length) m first xs.length with
      | none => rfl
      | some m1 =>
        simp only [Option.map_some, Option.bind_some, Option.bind_eq_bind]
        cases isSorted m1 lt first xs.length with
        | none => rfl
        | some b => cases b <;> rfl
  obtain ⟨m1, ys, e, s, so, o⟩ := C38_new_sort h false hs hx hr
  rw [e] at h2
  cases hw : newSortN f sw temp heap first xs.length t 0 m with
  | ok r t' j' m' =>
    rw [hw] at h2
    have := h2.1
    simp only [Option.map_some, Option.some.injEq, Prod.mk.injEq] at this
    rw [← this.1]
    exact ⟨ys, s, so, o⟩
  | asked m' => rw [hw] at h2; exact h2
  | swapped m' => rw [hw] at h2; exact h2
  | heaped m' => rw [hw] at h2; exact h2
  | ub => rw [hw] at h2; cases h2

/-! ## Examples -/

/-- A heap sort whose comparison does not throw. -/
def quietHeap (lt : α → α → Bool) (first n : Nat) (t : τ) (j : Nat) (m : Mem α) : Way α τ Unit :=
  match refHeap lt m first n with
  | some m' => .ok () t j m'
  | none => .ub

theorem quietHeap_keeps {lt : α → α → Bool} (h : StrictWeak lt) : HeapKeeps (τ := τ) (refHeap lt) (quietHeap lt) := by
  intro m first xs t j hx
  obtain ⟨m1, ys, e, -⟩ := refHeap_sorts h m first xs hx
  unfold quietHeap
  rw [e]

/-- A comparison of numbers that counts its calls and throws in the call `limit`. -/
def lessUpTo (limit : Nat) (t : Nat) (q : Nat × Nat) : Option (Bool × Nat) := if t = limit then none else some (decide (q.1 < q.2), t + 1)

/-- Eight numbers from the address 0 on. -/
def eightN : Mem Nat := fun x => [50, 40, 80, 30, 70, 20, 60, 10][x]?

/-- How a run ends, with the eight elements. -/
def ending (w : Way Nat Nat Unit) : Nat × List (Option Nat) :=
  match w with
  | .ok _ _ _ m => (0, (List.range 8).map m)
  | .asked m => (1, (List.range 8).map m)
  | .swapped m => (2, (List.range 8).map m)
  | .heaped m => (3, (List.range 8).map m)
  | .ub => (4, [])

/-- No exception. -/
example : ending (newSortN (lessUpTo 100) (fun _ => none) 10 (quietHeap fun x y => decide (x < y)) 0 8 0 0 eightN) =
    (0, [10, 20, 30, 40, 50, 60, 70, 80].map some) := by decide +kernel

/-- The comparison throws. -/
example : ending (newSortN (lessUpTo 12) (fun _ => none) 10 (quietHeap fun x y => decide (x < y)) 0 8 0 0 eightN) =
    (1, [10, 40, 20, 30, 50, 80, 60, 70].map some) := by decide +kernel

/-- A swap throws and leaves 7 in both of its objects. -/
example : ending (newSortN (lessUpTo 100) (fun i => if i = 0 then some (7, 7) else none) 10 (quietHeap fun x y => decide (x < y)) 0 8 0 0 eightN) =
    (2, [10, 40, 7, 30, 50, 7, 60, 70].map some) := by decide +kernel

/-- The hypotheses of the theorem are met. -/
example : eightN.Seg 0 [50, 40, 80, 30, 70, 20, 60, 10] ∧ eightN.Raw 10 5 ∧ StrictWeak (fun x y : Nat => decide (x < y)) ∧
    Honest (uncurry2 fun x y : Nat => decide (x < y)) (lessUpTo 9) := by
  refine ⟨fun i hi => ?_, fun i hi => ?_, ⟨?_, ?_⟩, fun t q b t' h => ?_⟩
  · simp only [List.length_cons, List.length_nil] at hi
    interval_cases i <;> rfl
  · interval_cases i <;> rfl
  · intro x y hxy
    simp only [decide_eq_true_eq, decide_eq_false_iff_not] at *
    omega
  · intro x y z hxy
    simp only [decide_eq_true_eq, decide_eq_false_iff_not] at *
    omega
  · unfold lessUpTo at h
    split at h
    · cases h
    · cases h
      rfl

end Verif.Algo.Swapping
