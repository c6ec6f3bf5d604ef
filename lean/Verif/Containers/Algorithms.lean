import Verif.Containers.GenericProps
import Verif.Containers.VectorProps
import Verif.Containers.SboWorld
import Verif.Containers.StaticVector
import Verif.Algo.Sort
import Verif.Algo.Reverse
import Verif.Algo.Overlap
import Verif.Algo.SkaProps
import Verif.Algo.UniqueProps
import Verif.Views.Compare
import Verif.Lists.BidirProps
import Verif.Lists.ForwardInv

/-!
# Algorithms on containers (C96)

The theorems on algorithms are about elements in memory, those on containers about the operations of the containers. Here both
are put together: the iterators of a container are positions in its storage, and a program uses the operations of a container and
the algorithms in any order.
-/

namespace Verif.Containers

open Verif Impl Lawful Algo Views

variable {V O : Type} {I : Impl V O} {mn : Nat} {mkA : Bool} {L : Lawful I mn mkA}

/-! ## Model -/

/-- What can be read through the iterators of a container: the slots of its storage (`bounded_vector.cpp` 140-145, `static_vector.cpp` 100-105, `sbo_vector.cpp` 232-237,
`begin_end.cpp` 35-47: `begin` is an iterator to `data()`). An access past the storage is undefined. -/
def Impl.slots (I : Impl V O) (h : Heap V) (o : O) : Mem V := fun k => if k < (I.mem h o).1 then (I.mem h o).2 k else none

/-- A container as a range: `begin()` is at slot 0, the end is `begin + size()` (`begin_end.cpp` 54-61). -/
def Impl.range (I : Impl V O) (h : Heap V) (o : O) : Views.Range Nat V where
  ops := (memRange (I.slots h o) 0 (I.size o)).toRng
  first := 0
  size? := some (I.size o)

/-- A doubly linked list as a range (`bidirectional_linked_list.cpp` 120-131, `linked_list_helper.cpp` 64-104): `end()` is the
sentinel, which cannot be dereferenced. It has no `size()`. -/
def listRange (h : Lists.LHeap V) (l : Nat) : Option (Views.Range Nat V) :=
  (h.nextOf l).map fun b =>
  { ops :=
      { atEnd := fun it => .ok (it == l)
        deref := fun it => match h.valOf it with
          | some (some v) => .ok v
          | _ => .ub
        next := fun it => ofOption (h.nextOf it) }
    first := b
    size? := none }

/-- A singly linked list as a range (`forward_linked_list.cpp` 82-90, `begin_end.cpp` 39-40): the end is the null iterator. -/
def forwardRange (h : Lists.FHeap V) (l : Nat) : Option (Views.Range (Option Nat) V) :=
  (h.nextOf l).map fun b =>
  { ops :=
      { atEnd := fun it => .ok (it == none)
        deref := fun it => match it.bind h.valOf with
          | some (some v) => .ok v
          | _ => .ub
        next := fun it => ofOption (it.bind h.nextOf) }
    first := b
    size? := none }

/-- Operations on a container and algorithms that rearrange its elements. The cells after the storage of the container stand for
the local variables of `new_sort`. -/
inductive AOp (V : Type) where
  /-- an operation of the container -/
  | use (u : GOp V)
  /-- `reverse(container)` (`algorithms/reverse.cpp` 22-46) -/
  | reverse
  /-- `partition(container, p)` (`algorithms/partition.cpp` 62-107) -/
  | partition (p : V → Bool)
  /-- `new_sort(container, lt)` (`algorithms/sort/sort.cpp` 79-92) -/
  | sort (cheap : Bool) (lt : V → V → Bool) (heap : Mem V → Nat → Nat → Option (Mem V))
  /-- `ska_sort(container, key)` (`algorithms/sort/ska_sort.cpp` 25-39) -/
  | skaSort (d : Desc V) (std : Mem V → Nat → Nat → Option (Mem V))
  /-- `copy(subrange(begin + first, begin + last), begin + output)` (`algorithms/copy.cpp` 34-41) -/
  | copy (first last output : Nat)
  /-- `copy_backward(subrange(begin + first, begin + last), begin + output)` (`algorithms/copy.cpp` 100-105): `output` is where the copies end -/
  | copyBackward (first last output : Nat)
  /-- `erase_to_end(container, unique(container, eq))` (`algorithms/unique.cpp` 85-101, `algorithms/erase.cpp` 77-88), the second half of
  `unique_ska_sort` (`algorithms/sort/ska_sort.cpp` 41-56). `left`: the value of an element
  that was moved from -/
  | unique (kind : MoveKind) (eq : V → V → Bool) (left : V)

/-- The values of the elements after an algorithm that moves from some of them (`algorithms/unique.cpp` 95-100 moves elements by assignment). `left`: what
they have afterwards. -/
def leftBehind (left : V) (m : Mem (Obj V)) : Mem V := fun a =>
  match m a with
  | some (.val v) => some v
  | some .moved => some left
  | none => none

/-- Running an algorithm on the storage of a container: it gets the slots and the number of elements. -/
def Impl.rearrange (I : Impl V O) (h : Heap V) (o : O) (alg : Mem V → Nat → Option (Mem V)) : Out (Heap V × O) :=
  match alg (I.slots h o) (I.size o) with
  | some m => .ok (I.put h o m)
  | none => .ub

/-- One step of a program that uses a container and algorithms. -/
def Impl.astep (I : Impl V O) (mn : Nat) (s : Heap V × O) : AOp V → Out (Heap V × O)
  | .use u => I.step mn s.1 s.2 u
  | .reverse => I.rearrange s.1 s.2 fun m n => reverseRandomAccess m 0 n
  | .partition p => I.rearrange s.1 s.2 fun m n => (Algo.partition true m p 0 n).map (·.1)
  | .sort cheap lt heap => I.rearrange s.1 s.2 fun m n => newSort cheap lt (I.mem s.1 s.2).1 heap m 0 n
  | .skaSort d std => I.rearrange s.1 s.2 fun m n => (Algo.skaSort std d m 0 n).map (·.1)
  | .copy first last output => I.rearrange s.1 s.2 fun m _ => (m.copy first output (last - first)).map (·.1)
  | .copyBackward first last output => I.rearrange s.1 s.2 fun m _ => (m.copyBackward last output (last - first)).map (·.1)
  | .unique kind eq left =>
    match Algo.unique kind eq (fun a => (I.slots s.1 s.2 a).map .val) 0 (I.size s.2) with
    | none => .ub
    | some (m, position) => I.step mn (I.put s.1 s.2 (leftBehind left m)).1 (I.put s.1 s.2 (leftBehind left m)).2 (.eraseToEnd position)

/-! ## Specification -/

/-- The list with the elements from position `k` on replaced by `ys`. -/
def overwrite (xs : List V) (k : Nat) (ys : List V) : List V := xs.take k ++ ys ++ xs.drop (k + ys.length)

/-- The elements from position `k` up to position `j`. -/
def slice (xs : List V) (k j : Nat) : List V := (xs.take j).drop k

/-- What the user knows after an operation: the elements and the capacity, and whether it threw. A partition and a sort that is not
stable leave some freedom; `ska_sort` does not always sort (C42). -/
def AOp.Spec (q : Cfg) (s : SV V) : AOp V → SV V → Bool → Prop
  | .use u, s', t => (s', t) = u.spec q s
  | .reverse, s', t => s' = (s.1.reverse, s.2) ∧ t = false
  | .partition p, s', t => s'.1.Perm s.1 ∧ (∃ k, (∀ x ∈ s'.1.take k, p x = true) ∧ ∀ x ∈ s'.1.drop k, p x = false) ∧ s'.2 = s.2 ∧ t = false
  | .sort _ lt _, s', t => s'.1.Perm s.1 ∧ s'.1.Pairwise (fun x y => lt y x = false) ∧ s'.2 = s.2 ∧ t = false
  | .skaSort d _, s', t => s'.1.Perm s.1 ∧ (d.Plain → s.1.length ≤ 128 ∨ SafeChain d.chain → s'.1.Pairwise (fun x y => d.less y x = false)) ∧ s'.2 = s.2 ∧ t = false
  | .copy first last output, s', t => s' = (overwrite s.1 output (slice s.1 first last), s.2) ∧ t = false
  | .copyBackward first last output, s', t => s' = (overwrite s.1 (output - (last - first)) (slice s.1 first last), s.2) ∧ t = false
  | .unique _ eq _, s', t => s' = (firstOfRuns eq s.1, s.2) ∧ t = false

/-- What the user has to ensure. -/
def AOp.Pre (q : Cfg) (s : SV V) : AOp V → Prop
  | .use u => u.pre q s
  | .reverse => True
  | .partition _ => True
  | .sort _ lt heap => StrictWeak lt ∧ HeapSorts lt heap
  | .skaSort d std => d.WF ∧ d.NonEmpty ∧ SortsBy d.less std
  | .copy first last output => first ≤ last ∧ last ≤ s.1.length ∧ output + (last - first) ≤ s.1.length ∧ (output ≤ first ∨ last ≤ output)
  | .copyBackward first last output => first ≤ last ∧ last ≤ s.1.length ∧ last - first ≤ output ∧ output ≤ s.1.length ∧ (last ≤ output ∨ output ≤ first)
  | .unique _ eq _ => ∀ a b c, [a, b, c].Sublist s.1 → eq a b = true → eq a c = eq b c

/-- Every operation is allowed, whatever the operations before it made of the freedom that they have. -/
def SafeHist (q : Cfg) : SV V → List (AOp V) → Prop
  | _, [] => True
  | s, op :: ops => op.Pre q s ∧ ∀ s' t, op.Spec q s s' t → SafeHist q s' ops

/-- The steps of the specification. -/
inductive SpecRun (q : Cfg) : SV V → List (AOp V) → SV V → List Bool → Prop
  | nil (s : SV V) : SpecRun q s [] s []
  | cons {s s' s'' : SV V} {op : AOp V} {ops : List (AOp V)} {t : Bool} {ts : List Bool} : op.Spec q s s' t → SpecRun q s' ops s'' ts →
      SpecRun q s (op :: ops) s'' (t :: ts)

/-! ## Containers as ranges -/

theorem Rep.slots {h : Heap V} {o : O} {xs : List V} {cap : Nat} (r : L.Rep h o xs cap) : I.slots h o = fun k => xs[k]? := by
  obtain ⟨⟨-, h2, -⟩, h4⟩ := r
  funext k
  rw [Impl.slots, h2]
  simp only
  split
  · rfl
  · rw [List.getElem?_eq_none (by omega)]

theorem cells_seg (xs : List V) : Mem.Seg (fun k => xs[k]?) 0 xs := fun i hi => by
  simp only [Nat.zero_add]; exact List.getElem?_eq_getElem hi

theorem Rep.seg {h : Heap V} {o : O} {xs : List V} {cap : Nat} (r : L.Rep h o xs cap) : (I.slots h o).Seg 0 xs := by
  rw [Rep.slots r]; exact cells_seg xs

theorem Rep.range {h : Heap V} {o : O} {xs : List V} {cap : Nat} (r : L.Rep h o xs cap) : (I.range h o).Is xs := by
  have hs : I.size o = xs.length := r.1.2.2
  have := (memRange_indexed (Rep.seg r)).toPositions.visits
  refine ⟨?_, fun n hn => ?_⟩
  · rw [Nat.zero_add] at this
    simp only [Impl.range, hs]
    exact this
  · simp only [Impl.range, Option.some.injEq] at hn
    omega

/-- A memory that is the old one outside of the elements and holds `ys` there. -/
theorem cells_of_seg {xs ys : List V} {m : Mem V} {S : Nat → Prop} (hS : ∀ a, S a → a < xs.length) (hl : ys.length = xs.length) (h : m.Seg 0 ys)
    (hf : Mem.SameOff (fun k => xs[k]?) m S) : m = fun k => ys[k]? := by
  funext k
  by_cases hk : k < ys.length
  · have := h k hk
    rw [Nat.zero_add] at this
    rw [this, List.getElem?_eq_getElem hk]
  · rw [hf k (fun hs => by have := hS k hs; omega)]
    simp only
    rw [List.getElem?_eq_none (show xs.length ≤ k by omega), List.getElem?_eq_none (show ys.length ≤ k by omega)]

theorem Rep.put {h : Heap V} {o : O} {xs ys : List V} {cap : Nat} (r : L.Rep h o xs cap) (hl : ys.length = xs.length) :
    L.Rep (I.put h o fun k => ys[k]?).1 (I.put h o fun k => ys[k]?).2 ys cap ∧
      Frame (I.own o) h (I.own (I.put h o fun k => ys[k]?).2) (I.put h o fun k => ys[k]?).1 := by
  obtain ⟨⟨h1, h2, h3⟩, h4⟩ := r
  obtain ⟨q1, q2, q3, q4, q5⟩ := L.put_law (fun k => ys[k]?) h1
  refine ⟨⟨⟨q1, by rw [q2, h2], by rw [q3, h3, hl]⟩, by omega⟩, ?_⟩
  have : I.own (I.put h o fun k => ys[k]?).2 = I.own o := by funext b; simp only [Impl.own, q4]
  rw [this]; exact q5

theorem leftBehind_seg {left : V} {m : Mem (Obj V)} {xs zs : List V} (hs : Mem.Seg (Algo.vals m) 0 zs) (hl : SameLive (objs xs) m) :
    ∃ ws, leftBehind left m = (fun k => (zs ++ ws)[k]?) ∧ (zs ++ ws).length = xs.length := by
  have hval : ∀ k (hk : k < zs.length), m k = some (.val zs[k]) := fun k hk => by
    have := hs k hk
    rw [Nat.zero_add] at this
    exact (vals_some ..).1 this
  have hlive : ∀ k, m k = none ↔ xs.length ≤ k := fun k => by
    rw [hl k, objs, Option.map_eq_none_iff, List.getElem?_eq_none_iff]
  have hle : zs.length ≤ xs.length := by
    by_contra hh
    have h1 := hval xs.length (by omega)
    rw [(hlive _).2 (Nat.le_refl _)] at h1
    cases h1
  refine ⟨(List.range (xs.length - zs.length)).map fun i => (leftBehind left m (zs.length + i)).getD left, ?_, ?_⟩
  · funext k
    by_cases hk : k < zs.length
    · rw [List.getElem?_append_left hk, List.getElem?_eq_getElem hk, leftBehind, hval k hk]
    · rw [List.getElem?_append_right (by omega), List.getElem?_map]
      by_cases hk' : k < xs.length
      · rw [List.getElem?_range (by omega)]
        simp only [Option.map_some]
        rw [show zs.length + (k - zs.length) = k by omega]
        have : leftBehind left m k ≠ none := by
          have h1 := mt (hlive k).1 (by omega)
          unfold leftBehind
          split <;> simp_all
        obtain ⟨v, hv⟩ := Option.ne_none_iff_exists'.1 this
        rw [hv]; rfl
      · rw [List.getElem?_eq_none (by simp; omega), leftBehind, (hlive k).2 (by omega)]; rfl
  · simp; omega

theorem slice_length {xs : List V} {k j : Nat} (hj : j ≤ xs.length) : (slice xs k j).length = j - k := by simp [slice]; omega

theorem slice_seg {xs : List V} {k j : Nat} (hj : j ≤ xs.length) : Mem.Seg (fun a => xs[a]?) k (slice xs k j) := fun i hi => by
  rw [slice_length hj] at hi
  simp only [slice, List.getElem_drop, List.getElem_take]
  exact List.getElem?_eq_getElem _

theorem overwrite_length {xs ys : List V} {k : Nat} (h : k + ys.length ≤ xs.length) : (overwrite xs k ys).length = xs.length := by simp [overwrite]; omega

theorem overwrite_cells {xs ys : List V} {k : Nat} (h : k + ys.length ≤ xs.length) {m : Mem V} (hs : m.Seg k ys)
    (hf : Mem.SameOff (fun a => xs[a]?) m (fun x => k ≤ x ∧ x < k + ys.length)) : m = fun a => (overwrite xs k ys)[a]? := by
  funext a
  by_cases h1 : a < k
  · rw [hf a (by omega), overwrite, List.append_assoc, List.getElem?_append_left (by simp; omega), List.getElem?_take_of_lt h1]
  · by_cases h2 : a < k + ys.length
    · have := hs (a - k) (by omega)
      rw [show k + (a - k) = a by omega] at this
      rw [this, overwrite, List.getElem?_append_left (by simp; omega), List.getElem?_append_right (by simp; omega)]
      rw [List.length_take, Nat.min_eq_left (by omega), List.getElem?_eq_getElem]
    · rw [hf a (by omega), overwrite, List.getElem?_append_right (by simp; omega), List.getElem?_drop]
      congr 1
      simp; omega

/-- One step, from every state that holds the elements. -/
theorem astep_ok {h : Heap V} {o : O} {s : SV V} (r : L.Rep h o s.1 s.2) (hf : Fresh h) (op : AOp V) (hp : op.Pre L.cfg s) :
    ∃ h' o' s' t, I.astep mn (h, o) op = Out.of t (h', o') ∧ op.Spec L.cfg s s' t ∧ L.Rep h' o' s'.1 s'.2 ∧ Frame (I.own o) h (I.own o') h' := by
  have hsz : I.size o = s.1.length := r.1.2.2
  have hcap : (I.mem h o).1 = s.2 := by rw [r.1.2.1]
  cases op with
  | use u =>
    obtain ⟨h', o', e, r', f, -⟩ := good_step (L := L) (xs := s.1) (cap := s.2) r hf u hp
    exact ⟨h', o', _, _, e, rfl, r', f⟩
  | reverse =>
    obtain ⟨m', e, h1, h2⟩ := C54_reverse_random_access (Rep.seg r)
    rw [Rep.slots r] at h2
    rw [Nat.zero_add] at e
    have hm := cells_of_seg (by intro a ha; omega) (by simp) h1 h2
    obtain ⟨r', f⟩ := Rep.put (ys := s.1.reverse) r (by simp)
    refine ⟨_, _, (s.1.reverse, s.2), false, ?_, ⟨rfl, rfl⟩, r', f⟩
    simp only [Impl.astep, Impl.rearrange, hsz, e, hm, Out.of_false]
  | partition p =>
    obtain ⟨m', ys, k, e, h1, h2, h3⟩ := C37_partition true (p := p) (Rep.seg r)
    rw [Rep.slots r] at h3
    rw [Nat.zero_add] at e
    have hm := cells_of_seg (by intro a ha; simp only [InRange] at ha; omega) h2.perm.length_eq h1 h3
    obtain ⟨r', f⟩ := Rep.put (ys := ys) r h2.perm.length_eq
    refine ⟨_, _, (ys, s.2), false, ?_, ⟨h2.perm, ⟨k, h2.take_drop⟩, rfl, rfl⟩, r', f⟩
    simp only [Impl.astep, Impl.rearrange, hsz, e, hm, Option.map_some, Out.of_false]
  | sort cheap lt heap =>
    have hraw : (I.slots h o).Raw s.2 5 := fun i _ => by
      rw [Impl.slots, if_neg (by omega)]
    obtain ⟨m', ys, e, h1, h2, h3⟩ := C38_new_sort hp.1 cheap hp.2 (Rep.seg r) hraw
    rw [Rep.slots r] at h3
    have hm := cells_of_seg (by intro a ha; simp only [InRange] at ha; omega) h2.perm.length_eq h1 h3
    obtain ⟨r', f⟩ := Rep.put (ys := ys) r h2.perm.length_eq
    refine ⟨_, _, (ys, s.2), false, ?_, ⟨h2.perm, h2.sorted, rfl, rfl⟩, r', f⟩
    simp only [Impl.astep, Impl.rearrange, hsz, hcap, e, hm, Out.of_false]
  | skaSort d std =>
    obtain ⟨hw, hn, hstd⟩ := hp
    have key : ∃ m' ys e, Algo.skaSort std d (I.slots h o) 0 s.1.length = some (m', e) ∧ m'.Seg 0 ys ∧ ys.Perm s.1 ∧
        (d.Plain → s.1.length ≤ 128 ∨ SafeChain d.chain → ys.Pairwise (fun x y => d.less y x = false)) ∧
        (I.slots h o).SameOff m' (InRange 0 s.1.length) := by
      by_cases hc : d.Plain ∧ (s.1.length ≤ 128 ∨ SafeChain d.chain)
      · obtain ⟨hpl, hc | hc⟩ := hc
        · obtain ⟨m', ys, e, h1, h2, h3⟩ := C42_ska_sort_small hw hn hpl hstd (Rep.seg r) hc
          exact ⟨m', ys, _, e, h1, h2.perm, fun _ _ => h2.sorted, h3⟩
        · obtain ⟨m', ys, e, h1, h2, h3⟩ := C42_ska_sort_bytes hw hn hpl hc hstd (Rep.seg r)
          exact ⟨m', ys, _, e, h1, h2.perm, fun _ _ => h2.sorted, h3⟩
      · obtain ⟨m', ys, e, e1, h1, h2, h3⟩ := C42_permutation hw hn hstd (Rep.seg r)
        exact ⟨m', ys, e, e1, h1, h2, fun q1 q2 => absurd ⟨q1, q2⟩ hc, h3⟩
    obtain ⟨m', ys, e, e1, h1, h2, h3, h4⟩ := key
    rw [Rep.slots r] at h4
    have hm := cells_of_seg (by intro a ha; simp only [InRange] at ha; omega) h2.length_eq h1 h4
    obtain ⟨r', f⟩ := Rep.put (ys := ys) r h2.length_eq
    refine ⟨_, _, (ys, s.2), false, ?_, ⟨h2, h3, rfl, rfl⟩, r', f⟩
    simp only [Impl.astep, Impl.rearrange, hsz, e1, hm, Option.map_some, Out.of_false]
  | copy first last output =>
    obtain ⟨p1, p2, p3, p4⟩ := hp
    have hl := slice_length (xs := s.1) (k := first) p2
    obtain ⟨m', e, h1, h2⟩ := Mem.C89_copy (d := output) (slice_seg (k := first) p2) (fun i hi => by rw [List.getElem?_eq_getElem (by omega)]; simp) (by omega)
    have hm := overwrite_cells (by omega) h1 h2
    obtain ⟨r', f⟩ := Rep.put (ys := overwrite s.1 output (slice s.1 first last)) r (overwrite_length (by omega))
    refine ⟨_, _, (overwrite s.1 output (slice s.1 first last), s.2), false, ?_, ⟨rfl, rfl⟩, r', f⟩
    rw [hl] at e
    simp only [Impl.astep, Impl.rearrange, Rep.slots r, e, hm, Option.map_some, Out.of_false]
  | copyBackward first last output =>
    obtain ⟨p1, p2, p3, p4, p5⟩ := hp
    have hl := slice_length (xs := s.1) (k := first) p2
    obtain ⟨m', e, h1, h2⟩ := Mem.C89_copy_backward (d := output - (last - first)) (slice_seg (k := first) p2)
      (fun i hi => by rw [List.getElem?_eq_getElem (by omega)]; simp) (by omega)
    have hm := overwrite_cells (by omega) h1 h2
    obtain ⟨r', f⟩ := Rep.put (ys := overwrite s.1 (output - (last - first)) (slice s.1 first last)) r (overwrite_length (by omega))
    refine ⟨_, _, (overwrite s.1 (output - (last - first)) (slice s.1 first last), s.2), false, ?_, ⟨rfl, rfl⟩, r', f⟩
    rw [hl, show first + (last - first) = last by omega, show output - (last - first) + (last - first) = output by omega] at e
    simp only [Impl.astep, Impl.rearrange, Rep.slots r, e, hm, Option.map_some, Out.of_false]
  | unique kind eq left =>
    obtain ⟨m', e, h1, -, h3⟩ := C44_unique (mk := kind) (objs_seg s.1) hp
    rw [Nat.zero_add, Nat.zero_add] at e
    obtain ⟨ws, hw, hwl⟩ := leftBehind_seg (left := left) h1 h3
    obtain ⟨r2, f2⟩ := Rep.put (ys := firstOfRuns eq s.1 ++ ws) r hwl
    obtain ⟨h3, o3, e3, r3, f3, -⟩ := good_step (L := L) r2 (f2.fresh hf) (.eraseToEnd (firstOfRuns eq s.1).length) (by
      show _ ≤ (firstOfRuns eq s.1 ++ ws).length
      rw [List.length_append]; omega)
    refine ⟨h3, o3, (firstOfRuns eq s.1, s.2), false, ?_, ⟨rfl, rfl⟩, by simpa [GOp.spec] using r3, f2.trans f3⟩
    simp only [Impl.astep, hsz, Rep.slots r]
    have : (fun a => (s.1[a]?).map Obj.val) = objs s.1 := rfl
    rw [this, e]
    simp only [hw]
    exact e3

/-! ## The theorems -/

/-- Every program that uses a container (`vector`, `static_vector`, `sbo_vector`) with its operations and with the algorithms, in any
order, is defined, and ends with the elements that the specifications of the operations and algorithms give, one after the other. The
container reads as the range of exactly these elements. -/
theorem C96_history_partial : ∀ (ops : List (AOp V)) {h : Heap V} {o : O} {s : SV V}, L.Rep h o s.1 s.2 → Fresh h → SafeHist L.cfg s ops →
    ∃ h' o' s' ts, runHist (I.astep mn) (h, o) ops = some ((h', o'), ts) ∧ SpecRun L.cfg s ops s' ts ∧ L.Rep h' o' s'.1 s'.2 ∧
      (I.range h' o').Is s'.1 ∧ Frame (I.own o) h (I.own o') h'
  | [], h, o, s, r, _, _ => ⟨h, o, s, [], rfl, .nil s, r, Rep.range r, Frame.refl _ _⟩
  | op :: ops, h, o, s, r, hf, hs => by
    obtain ⟨h1, o1, s1, t, e, sp, r1, f1⟩ := astep_ok r hf op hs.1
    obtain ⟨h2, o2, s2, ts, e2, sp2, r2, g2, f2⟩ := C96_history_partial ops r1 (f1.fresh hf) (hs.2 _ _ sp)
    refine ⟨h2, o2, s2, t :: ts, ?_, .cons sp sp2, r2, g2, f1.trans f2⟩
    cases t <;> simp [runHist, e, e2]

/-- Two containers, of any two kinds and whatever they went through, are equal exactly if they have the same elements, and are
ordered like their elements: neither the capacity nor the place of the elements matters. -/
theorem C96_compare {P : Type} {J : Impl V P} {mn' : Nat} {mkA' : Bool} {K : Lawful J mn' mkA'} [DecidableEq V] {h : Heap V} {o : O} {p : P} {xs ys : List V}
    {cap cap' : Nat} (r : L.Rep h o xs cap) (r' : K.Rep h p ys cap') {f : Nat} (hf : xs.length < f) :
    Views.equal (I.range h o) (J.range h p) (fun x y => decide (x = y)) f = some (.ok (decide (xs = ys))) ∧
    (∀ cmp : V → V → POrd, ∃ c, lexCompare (I.range h o) (J.range h p) cmp f = some (.ok c) ∧ LexIs cmp xs ys c) ∧
    ∀ cmp : V → V → POrd, ∃ c, shortlexCompare (I.range h o) (J.range h p) cmp f = some (.ok c) ∧ ShortlexIs cmp xs ys c := by
  exact ⟨C47_equal_eq (Rep.range r) (Rep.range r') hf, fun cmp => C47_lexicographical_compare (Rep.range r) (Rep.range r') cmp hf,
    fun cmp => C47_shortlex_compare (Rep.range r) (Rep.range r') cmp rfl rfl hf⟩

/-- Searching in a container that is sorted, however it became that: `lower_bound` and `upper_bound` are before the first element
that is not smaller and behind the last one that is not greater, and `binary_search` finds exactly the elements. -/
theorem C96_search {lt : V → V → Bool} (hw : StrictWeak lt) {h : Heap V} {o : O} {xs : List V} {cap : Nat} (r : L.Rep h o xs cap)
    (hs : xs.Pairwise (fun x y => lt y x = false)) (v : V) :
    lowerBound (I.slots h o) lt 0 (I.size o) v = some (xs.countP (lt · v)) ∧
    upperBound (I.slots h o) lt 0 (I.size o) v = some (xs.countP (fun x => !lt v x)) ∧
    ∃ b, binarySearch (I.slots h o) lt lt 0 (I.size o) v = some b ∧ (b = true ↔ ∃ x ∈ xs, lt x v = false ∧ lt v x = false) := by
  have hsz : I.size o = xs.length := r.1.2.2
  have h1 := C36_lower_bound hw (Rep.seg r) hs v
  have h2 := C36_upper_bound hw (Rep.seg r) hs v
  have h3 := C36_binary_search hw (Rep.seg r) hs v
  simp only [Nat.zero_add] at h1 h2 h3
  rw [hsz]
  exact ⟨h1, h2, h3⟩

/-- A sort and a search: whatever was done with the container before, afterwards `binary_search` finds exactly what was in it. -/
theorem C96_sort_search {lt : V → V → Bool} {heap : Mem V → Nat → Nat → Option (Mem V)} (hw : StrictWeak lt) (hh : HeapSorts lt heap) (cheap : Bool)
    {h : Heap V} {o : O} {xs : List V} {cap : Nat} (r : L.Rep h o xs cap) (hf : Fresh h) (v : V) :
    ∃ h' o' b, I.astep mn (h, o) (.sort cheap lt heap) = .ok (h', o') ∧ binarySearch (I.slots h' o') lt lt 0 (I.size o') v = some b ∧
      (b = true ↔ ∃ x ∈ xs, lt x v = false ∧ lt v x = false) := by
  obtain ⟨h', o', s', t, e, ⟨s1, s2, -, rfl⟩, r', -⟩ := astep_ok (s := (xs, cap)) r hf (.sort cheap lt heap) ⟨hw, hh⟩
  obtain ⟨-, -, b, e2, hb⟩ := C96_search hw r' s2 v
  refine ⟨h', o', b, e, e2, hb.trans ?_⟩
  exact ⟨fun ⟨x, hx, q⟩ => ⟨x, s1.mem_iff.1 hx, q⟩, fun ⟨x, hx, q⟩ => ⟨x, s1.mem_iff.2 hx, q⟩⟩

theorem equiv_runs {lt : V → V → Bool} (hw : StrictWeak lt) (xs : List V) : ∀ a b c, [a, b, c].Sublist xs → equiv lt a b = true → equiv lt a c = equiv lt b c := by
  intro a b c _ hab
  obtain ⟨h1, h2⟩ := equiv_iff.1 hab
  have key : ∀ {a b : V}, lt a b = false → lt b a = false → equiv lt a c = true → equiv lt b c = true := by
    intro a b h1 h2 hac
    obtain ⟨h3, h4⟩ := equiv_iff.1 hac
    exact equiv_iff.2 ⟨hw.negTrans h3 h2, hw.negTrans h1 h4⟩
  rw [Bool.eq_iff_iff]
  exact ⟨key h1 h2, key h2 h1⟩

theorem runs_increasing {lt : V → V → Bool} (hw : StrictWeak lt) : ∀ {xs : List V}, xs.Pairwise (fun x y => lt y x = false) →
    (firstOfRuns (equiv lt) xs).Pairwise (fun x y => lt x y = true) ∧ (∀ x ∈ xs, ∃ z ∈ firstOfRuns (equiv lt) xs, equiv lt z x = true) ∧
      (∀ z ∈ firstOfRuns (equiv lt) xs, z ∈ xs) := by
  intro xs hs
  have : firstOfRuns (equiv lt) xs = firstOfRuns (fun a b => !lt a b) xs := Verif.Algo.firstOfRuns_congr <| hs.imp fun {a b} hab => by
    rw [equiv, hab]; simp
  rw [this, ← dedup_runs (sorted_runs hw hs)]
  have := dedup_uniqued hw hs
  exact ⟨this.increasing, this.covers, fun z hz => this.mem hz⟩

/-- Sorting and dropping the elements that are equivalent to the one before: whatever was done with the container before, the elements
that stay are strictly increasing, all from it, and every element of it is equivalent to one of them. -/
theorem C96_sort_unique {lt : V → V → Bool} {heap : Mem V → Nat → Nat → Option (Mem V)} (hw : StrictWeak lt) (hh : HeapSorts lt heap) (cheap : Bool)
    (kind : MoveKind) (left : V) {h : Heap V} {o : O} {xs : List V} {cap : Nat} (r : L.Rep h o xs cap) (hf : Fresh h) :
    ∃ h' o' zs, runHist (I.astep mn) (h, o) [.sort cheap lt heap, .unique kind (equiv lt) left] = some ((h', o'), [false, false]) ∧ L.Rep h' o' zs cap ∧
      zs.Pairwise (fun x y => lt x y = true) ∧ (∀ z ∈ zs, z ∈ xs) ∧ ∀ x ∈ xs, ∃ z ∈ zs, lt z x = false ∧ lt x z = false := by
  obtain ⟨h', o', s', ts, e, sp, r', -, -⟩ := C96_history_partial [.sort cheap lt heap, .unique kind (equiv lt) left] (s := (xs, cap)) r hf
    ⟨⟨hw, hh⟩, fun s' _ _ => ⟨equiv_runs hw s'.1, fun _ _ _ => trivial⟩⟩
  obtain _ | ⟨s1, sp⟩ := sp
  obtain _ | ⟨s2, sp⟩ := sp
  cases sp
  obtain ⟨p1, p2, p3, rfl⟩ := s1
  obtain ⟨rfl, rfl⟩ := s2
  obtain ⟨q1, q2, q3⟩ := runs_increasing hw p2
  refine ⟨h', o', _, e, by simpa only [p3] using r', q1, fun z hz => p1.mem_iff.1 (q3 z hz), fun x hx => ?_⟩
  obtain ⟨z, hz, hzx⟩ := q2 x (p1.mem_iff.2 hx)
  exact ⟨z, hz, equiv_iff.1 hzx⟩

/-- The same for `unique_ska_sort` (`algorithms/sort/ska_sort.cpp` 41-56) where `ska_sort` sorts; missing are the keys and sizes where it does not (C42). -/
theorem C96_unique_ska_sort_partial {d : Desc V} {std : Mem V → Nat → Nat → Option (Mem V)} (hd : d.WF) (hn : d.NonEmpty) (hpl : d.Plain) (hstd : SortsBy d.less std)
    (kind : MoveKind) (left : V) {h : Heap V} {o : O} {xs : List V} {cap : Nat} (r : L.Rep h o xs cap) (hf : Fresh h) (hc : xs.length ≤ 128 ∨ SafeChain d.chain) :
    ∃ h' o' zs, runHist (I.astep mn) (h, o) [.skaSort d std, .unique kind (equiv d.less) left] = some ((h', o'), [false, false]) ∧ L.Rep h' o' zs cap ∧
      zs.Pairwise (fun x y => d.less x y = true) ∧ (∀ z ∈ zs, z ∈ xs) ∧ ∀ x ∈ xs, ∃ z ∈ zs, d.less z x = false ∧ d.less x z = false := by
  have hw := d.less_strictWeak
  obtain ⟨h', o', s', ts, e, sp, r', -, -⟩ := C96_history_partial [.skaSort d std, .unique kind (equiv d.less) left] (s := (xs, cap)) r hf
    ⟨⟨hd, hn, hstd⟩, fun s' _ _ => ⟨equiv_runs hw s'.1, fun _ _ _ => trivial⟩⟩
  obtain _ | ⟨s1, sp⟩ := sp
  obtain _ | ⟨s2, sp⟩ := sp
  cases sp
  obtain ⟨p1, p2, p3, rfl⟩ := s1
  obtain ⟨rfl, rfl⟩ := s2
  obtain ⟨q1, q2, q3⟩ := runs_increasing hw (p2 hpl hc)
  refine ⟨h', o', _, e, by simpa only [p3] using r', q1, fun z hz => p1.mem_iff.1 (q3 z hz), fun x hx => ?_⟩
  obtain ⟨z, hz, hzx⟩ := q2 x (p1.mem_iff.2 hx)
  exact ⟨z, hz, equiv_iff.1 hzx⟩

/-- Reversing twice, with any uses in between that do not change the container, gives the elements back. -/
theorem C96_reverse_twice {h : Heap V} {o : O} {xs : List V} {cap : Nat} (r : L.Rep h o xs cap) (hf : Fresh h) :
    ∃ h' o', runHist (I.astep mn) (h, o) [.reverse, .reverse] = some ((h', o'), [false, false]) ∧ L.Rep h' o' xs cap := by
  obtain ⟨h', o', s', ts, e, sp, r', -, -⟩ := C96_history_partial [.reverse, .reverse] (s := (xs, cap)) r hf
    ⟨trivial, fun _ _ _ => ⟨trivial, fun _ _ _ => trivial⟩⟩
  cases sp with
  | cons s1 sp =>
    cases sp with
    | cons s2 sp =>
      cases sp
      obtain ⟨rfl, rfl⟩ := s1
      obtain ⟨rfl, rfl⟩ := s2
      refine ⟨h', o', e, ?_⟩
      simpa using r'

/-! ## Lists -/

theorem linked_visits {h : Lists.LHeap V} {l : Nat} : ∀ {xs : List (Nat × V)} {a : Nat}, List.IsChain (Lists.Linked h) (a :: (Lists.ids xs ++ [l])) →
    (∀ i v, (i, v) ∈ xs → h.valOf i = some (some v) ∧ i ≠ l) →
    ∃ b, h.nextOf a = some b ∧ ∀ R, listRange h l = some R → Visits R.ops b (xs.map (·.2))
  | [], a, hc, _ => by
    simp only [Lists.ids, List.map_nil, List.nil_append, List.isChain_cons_cons] at hc
    refine ⟨l, hc.1.1, fun R hR => ?_⟩
    rw [listRange, Option.map_eq_some_iff] at hR
    obtain ⟨b, -, rfl⟩ := hR
    simp [Visits]
  | (i, v) :: xs, a, hc, hv => by
    simp only [Lists.ids, List.map_cons, List.cons_append, List.isChain_cons_cons] at hc
    obtain ⟨hv1, hv2⟩ := hv i v (by simp)
    obtain ⟨b, hb, ih⟩ := linked_visits (xs := xs) (a := i) hc.2 (fun j w hw => hv j w (List.mem_cons_of_mem _ hw))
    refine ⟨i, hc.1.1, fun R hR => ?_⟩
    have ih := ih R hR
    rw [listRange, Option.map_eq_some_iff] at hR
    obtain ⟨c, -, rfl⟩ := hR
    refine ⟨by simpa using hv2, by simp [hv1], b, by simp [hb, ofOption], ih⟩

/-- A doubly linked list is the range of its elements, after every history (`Rel` is the invariant of C31). -/
theorem C96_list_range {h : Lists.LHeap V} {A : Lists.Abs V} (r : Lists.Rel h A) {l : Nat} {xs : List (Nat × V)} (hl : A.lists l = some xs) :
    ∃ R, listRange h l = some R ∧ R.Is (xs.map (·.2)) := by
  obtain ⟨b, hb, hv⟩ := linked_visits (r.ring hl) (fun i v hi => ⟨r.vals hl hi, r.sentNe hl hl (Lists.mem_ids.2 ⟨v, hi⟩)⟩)
  obtain ⟨R, e, h1, h2⟩ : ∃ R, listRange h l = some R ∧ R.first = b ∧ R.size? = none := by rw [listRange, hb]; exact ⟨_, rfl, rfl, rfl⟩
  refine ⟨R, e, ?_, fun n hn => by rw [h2] at hn; cases hn⟩
  rw [h1]; exact hv R e

/-- The end of a doubly linked list cannot be dereferenced. -/
theorem C96_list_end {h : Lists.LHeap V} {A : Lists.Abs V} (r : Lists.Rel h A) {l : Nat} {xs : List (Nat × V)} (hl : A.lists l = some xs) :
    ∃ R, listRange h l = some R ∧ R.ops.atEnd l = .ok true ∧ R.ops.deref l = .ub := by
  obtain ⟨b, hb, -⟩ := linked_visits (r.ring hl) (fun i v hi => ⟨r.vals hl hi, r.sentNe hl hl (Lists.mem_ids.2 ⟨v, hi⟩)⟩)
  refine ⟨_, by rw [listRange, hb]; rfl, by simp, ?_⟩
  simp only [r.sent hl]

theorem path_visits {h : Lists.FHeap V} {l : Nat} : ∀ {xs : List (Nat × V)} {a : Nat}, Lists.PathTo h.nextOf a (Lists.ids xs) none →
    (∀ i v, (i, v) ∈ xs → h.valOf i = some (some v)) →
    ∃ b, h.nextOf a = some b ∧ ∀ R, forwardRange h l = some R → Visits R.ops b (xs.map (·.2))
  | [], a, hc, _ => by
    simp only [Lists.ids, List.map_nil, Lists.PathTo] at hc
    refine ⟨none, hc, fun R hR => ?_⟩
    rw [forwardRange, Option.map_eq_some_iff] at hR
    obtain ⟨b, -, rfl⟩ := hR
    simp [Visits]
  | (i, v) :: xs, a, hc, hv => by
    simp only [Lists.ids, List.map_cons, Lists.PathTo] at hc
    have hv1 := hv i v (by simp)
    obtain ⟨b, hb, ih⟩ := path_visits (l := l) (xs := xs) (a := i) hc.2 (fun j w hw => hv j w (List.mem_cons_of_mem _ hw))
    refine ⟨some i, hc.1, fun R hR => ?_⟩
    have ih := ih R hR
    rw [forwardRange, Option.map_eq_some_iff] at hR
    obtain ⟨c, -, rfl⟩ := hR
    refine ⟨by simp, by simp [hv1], b, by simp [hb, ofOption], ih⟩

/-- A singly linked list is the range of its elements, after every history (`FRel` is the invariant of C32). -/
theorem C96_forward_list_range {h : Lists.FHeap V} {A : Lists.Abs V} (r : Lists.FRel h A) {l : Nat} {xs : List (Nat × V)} (hl : A.lists l = some xs) :
    ∃ R, forwardRange h l = some R ∧ R.Is (xs.map (·.2)) := by
  obtain ⟨b, hb, hv⟩ := path_visits (l := l) (r.path hl) (fun i v hi => r.node.2 ⟨l, xs, hl, hi⟩)
  obtain ⟨R, e, h1, h2⟩ : ∃ R, forwardRange h l = some R ∧ R.first = b ∧ R.size? = none := by rw [forwardRange, hb]; exact ⟨_, rfl, rfl, rfl⟩
  refine ⟨R, e, ?_, fun n hn => by rw [h2] at hn; cases hn⟩
  rw [h1]; exact hv R e

/-- The null iterator cannot be dereferenced. -/
theorem C96_forward_list_end {h : Lists.FHeap V} {A : Lists.Abs V} (r : Lists.FRel h A) {l : Nat} {xs : List (Nat × V)} (hl : A.lists l = some xs) :
    ∃ R, forwardRange h l = some R ∧ R.ops.atEnd none = .ok true ∧ R.ops.deref none = .ub := by
  obtain ⟨b, hb, -⟩ := path_visits (l := l) (r.path hl) (fun i v hi => r.node.2 ⟨l, xs, hl, hi⟩)
  exact ⟨_, by rw [forwardRange, hb]; rfl, rfl, rfl⟩

/-- A contiguous container and a list are equal exactly if they have the same elements, likewise two lists. -/
theorem C96_list_equal [DecidableEq V] {h : Heap V} {o : O} {ys : List V} {cap : Nat} (q : L.Rep h o ys cap) {m : Lists.LHeap V} {A : Lists.Abs V}
    (r : Lists.Rel m A) {l k : Nat} {xs zs : List (Nat × V)} (hl : A.lists l = some xs) (hk : A.lists k = some zs) {f : Nat} (hf : xs.length < f) :
    ∃ R S, listRange m l = some R ∧ listRange m k = some S ∧
      Views.equal R (I.range h o) (fun x y => decide (x = y)) f = some (.ok (decide (xs.map (·.2) = ys))) ∧
      Views.equal R S (fun x y => decide (x = y)) f = some (.ok (decide (xs.map (·.2) = zs.map (·.2)))) := by
  obtain ⟨R, hR, iR⟩ := C96_list_range r hl
  obtain ⟨S, hS, iS⟩ := C96_list_range r hk
  exact ⟨R, S, hR, hS, C47_equal_eq iR (Rep.range q) (by simpa using hf), C47_equal_eq iR iS (by simpa using hf)⟩

/-! ## Examples -/

/-- A vector of numbers, used and rearranged. -/
def exOps : List (AOp Nat) :=
  [.use (.append [lit 5, lit 2, lit 8, lit 3] fun _ => false), .sort true (fun a b => decide (a < b)) (refHeap fun a b => decide (a < b)),
    .use (.push (.lit 7 false) fun _ => false), .reverse, .use (.erase 1 2), .partition fun x => x % 2 == 0]

/-- The elements, the capacity and the results of the searches for 2 and 4. -/
example : ((runHist ((vec Nat 0 100).astep 0) (⟨fun _ => none, 0⟩, { ptr := none, cap := 0, size := 0 }) exOps).map fun r =>
      ((List.range 5).map ((vec Nat 0 100).slots r.1.1 r.1.2), (vec Nat 0 100).size r.1.2, r.2)) =
    some ([some 2, some 5, some 3, some 7, none], 4, [false, false, false, false, false, false]) := by decide +kernel

theorem ltNat_strictWeak : StrictWeak (fun a b : Nat => decide (a < b)) where
  asymm := by simp only [decide_eq_true_eq, decide_eq_false_iff_not]; omega
  negTrans := by simp only [decide_eq_false_iff_not]; omega

/-- The hypotheses of `C96_history_partial` for it. -/
example : (Vec.lawful (V := Nat) 0 100 (by omega)).Rep ⟨fun _ => none, 0⟩ { ptr := none, cap := 0, size := 0 } [] 0 ∧
    Fresh (⟨fun _ => none, 0⟩ : Heap Nat) ∧ SafeHist (Vec.lawful (V := Nat) 0 100 (by omega)).cfg ([], 0) exOps := by
  refine ⟨⟨⟨.inl ⟨rfl, rfl, rfl⟩, rfl, rfl⟩, Nat.le_refl 0⟩, fun _ _ => rfl, (fun h => by cases h), fun s1 t1 h1 => ?_⟩
  have h1 : (s1, t1) = (([5, 2, 8, 3], 4), false) := h1
  cases h1
  refine ⟨⟨ltNat_strictWeak, refHeap_sorts ltNat_strictWeak⟩, fun s2 t2 h2 => ?_⟩
  obtain ⟨p, -, c, -⟩ := h2
  obtain ⟨xs, cap⟩ := s2
  have hl := p.length_eq
  simp only [List.length_cons, List.length_nil] at hl c
  subst c
  refine ⟨?_, fun s3 t3 h3 => ⟨trivial, fun s4 t4 h4 => ⟨?_, fun _ _ _ => ⟨trivial, fun _ _ _ => trivial⟩⟩⟩⟩
  · intro _ _ _
    show max 1 (2 * 4) ≤ 100
    decide
  · have h3 : (s3, t3) = ((xs ++ [7], 8), false) := by
      rw [h3]
      rw [GOp.spec, specPush, if_neg (by decide), if_neg (by simp only; omega)]
      rfl
    cases h3
    obtain ⟨rfl, -⟩ := h4
    exact ⟨by omega, by simp; omega⟩

/-- A vector of numbers with a key of one byte: appended, copied inside itself in both directions, reversed, sorted by the key, and without
repeated elements. -/
def exKeyOps (std : Mem Nat → Nat → Nat → Option (Mem Nat)) : List (AOp Nat) :=
  [.use (.append [lit 5, lit 2, lit 8, lit 3, lit 9] fun _ => false), .copy 2 4 1, .copyBackward 0 2 4, .reverse,
    .skaSort (.num 1 (· % 256)) std, .unique .clear (equiv (Desc.num 1 (· % 256)).less) 0]

/-- After the copies it holds 5, 8, 5, 8, 9 and at the end 5, 8, 9. -/
example : ((runHist ((vec Nat 0 100).astep 0) (⟨fun _ => none, 0⟩, { ptr := none, cap := 0, size := 0 })
      (exKeyOps (newSort true (fun a b => decide (a % 256 < b % 256)) 10 fun _ _ _ => none))).map fun r =>
      ((List.range 6).map ((vec Nat 0 100).slots r.1.1 r.1.2), (vec Nat 0 100).size r.1.2, r.2)) =
    some ([some 5, some 8, some 9, none, none, none], 3, [false, false, false, false, false, false]) := by decide +kernel

/-- The hypotheses of `C96_history_partial` for it. -/
example : SafeHist (Vec.lawful (V := Nat) 0 100 (by omega)).cfg ([], 0) (exKeyOps (refSort (Desc.num 1 (· % 256)).less)) := by
  refine ⟨(fun h => by cases h), fun s1 t1 h1 => ?_⟩
  have h1 : (s1, t1) = (([5, 2, 8, 3, 9], 5), false) := h1
  cases h1
  refine ⟨⟨by decide, by decide, by decide, by decide⟩, fun s2 t2 h2 => ?_⟩
  obtain ⟨rfl, -⟩ := h2
  refine ⟨⟨by decide, by decide, by decide, by decide, by decide⟩, fun s3 t3 h3 => ⟨trivial, fun s4 t4 h4 =>
    ⟨⟨⟨.inl rfl, fun x => Nat.mod_lt _ (by omega)⟩, trivial, refSort_sorts (Desc.less_strictWeak _)⟩, fun s5 _ _ => ⟨equiv_runs (Desc.less_strictWeak _) s5.1, fun _ _ _ => trivial⟩⟩⟩⟩

/-- The hypotheses of `C96_unique_ska_sort_partial`. -/
example : (Desc.num 1 (fun x : Nat => x % 256)).WF ∧ (Desc.num 1 (fun x : Nat => x % 256)).NonEmpty ∧ (Desc.num 1 (fun x : Nat => x % 256)).Plain ∧
    SafeChain (Desc.num 1 (fun x : Nat => x % 256)).chain ∧ SortsBy (Desc.num 1 (fun x : Nat => x % 256)).less (refSort (Desc.num 1 (fun x : Nat => x % 256)).less) :=
  ⟨⟨.inl rfl, fun x => Nat.mod_lt _ (by omega)⟩, trivial, trivial, ⟨by simp [Desc.SafeAt], trivial⟩, refSort_sorts (Desc.less_strictWeak _)⟩

end Verif.Containers
