import Verif.Maps.Upsert
import Verif.Containers.Observe

/-!
# Maps on the containers that hold their elements (C100)

C33 is about maps whose elements are in a mathematical sequence, C25 to C30 are about the containers. A map is made of both: here its operations
work on the storage of a container, which grows, runs out of memory, and has a greatest size.
-/

namespace Verif.Maps

open Verif Verif.Algo Verif.Algo.Mem
open Verif.Containers (Impl Lawful Heap GOp Item SV Fresh Frame lit leftBehind leftBehind_seg)
open Verif.Containers.Lawful

variable {κ μ O : Type}

/-! ## Model -/

/-- `keyed_upper_bound` (`keyed_binary_search.cpp` 25-31) in the storage of the container. -/
def upperOn (I : Impl (κ × μ) O) (C : Cfg κ μ) (h : Heap (κ × μ)) (o : O) (key : κ) : Option Nat :=
  upperBound (I.slots h o) (fun k e => C.lt k e.1) 0 (I.size o) key

/-- `find` (`flat_map.cpp` 320-327). -/
def findOn (I : Impl (κ × μ) O) (C : Cfg κ μ) (h : Heap (κ × μ)) (o : O) (key : κ) : Option Nat := do
  let it ← lowerBound (I.slots h o) (fun e k => C.lt e.1 k) 0 (I.size o) key
  if it = I.size o then some (I.size o)
  else do
    let e ← I.slots h o it
    some (if C.lt key e.1 then I.size o else it)

/-- `lookup` (`lookup.cpp` 20-26): the mapped value, or nothing for the null pointer. -/
def lookupOn (I : Impl (κ × μ) O) (C : Cfg κ μ) (h : Heap (κ × μ)) (o : O) (key : κ) : Option (Option μ) := do
  let it ← findOn I C h o key
  if it ≠ I.size o then do
    let e ← I.slots h o it
    some (some e.2)
  else some none

/-- The function `add_element` in `lazy_insert` (`flat_map.cpp` 243-249): `containers::lazy_insert` is `containers::insert` of a range of one element
(`insert.cpp` 140-151). If it throws nothing is returned; the position is only here because there has to be one. -/
def addOn (I : Impl (κ × μ) O) (mn : Nat) (h : Heap (κ × μ)) (o : O) (position : Nat) (e : Item (κ × μ)) (al : Nat → Bool) : Out ((Heap (κ × μ) × O) × Nat × Bool) :=
  match I.step mn h o (.insert position [e] al) with
  | .ok s => .ok (s, position, true)
  | .exn s => .exn (s, position, true)
  | .ub => .ub

/-- `lazy_insert` of a map (`flat_map.cpp` 241-264). `throws`: making the element throws. `al` tells which allocations fail. -/
def insertOn (I : Impl (κ × μ) O) (mn : Nat) (C : Cfg κ μ) (h : Heap (κ × μ)) (o : O) (key : κ) (mapped : μ) (throws : Bool) (al : Nat → Bool) :
    Out ((Heap (κ × μ) × O) × Nat × Bool) :=
  match upperOn I C h o key with
  | none => .ub
  | some position =>
    if position = 0 then addOn I mn h o position ⟨(key, mapped), throws⟩ al
    else
      match I.slots h o (position - 1) with
      | none => .ub
      | some before =>
        if C.lt before.1 key then addOn I mn h o position ⟨(key, mapped), throws⟩ al
        else .ok ((h, o), position - 1, false)

/-- `ska_sort` of the elements from `start` on (`flat_map.cpp` 85). -/
def sortOn (I : Impl (κ × μ) O) (C : Cfg κ μ) (h : Heap (κ × μ)) (o : O) (start : Nat) : Out (Heap (κ × μ) × O) :=
  I.rearrange h o fun m n => (skaSort C.std C.desc m start (n - start)).map (·.1)

/-- `merge_sorted_and_unsorted` (`flat_map.cpp` 79-102). The temporary of `unique_inplace_merge` lives in cells that hold no elements; its allocation
succeeds (C81 is about the other case). -/
def mergeOn (I : Impl (κ × μ) O) (mn : Nat) (C : Cfg κ μ) (left : κ × μ) (h : Heap (κ × μ)) (o : O) (midpoint : Nat) : Out (Heap (κ × μ) × O) :=
  match sortOn I C h o midpoint with
  | .ok s =>
    match uniqueInplaceMerge C.mv C.elt (I.size s.2) (fun a => (I.slots s.1 s.2 a).map .val) 0 midpoint (I.size s.2) with
    | none => .ub
    | some (m, position) => I.step mn (I.put s.1 s.2 (leftBehind left m)).1 (I.put s.1 s.2 (leftBehind left m)).2 (.eraseToEnd position)
  | .exn s => .exn s
  | .ub => .ub

/-- `insert` of a range (`flat_map.cpp` 266-273). -/
def insertRangeOn (I : Impl (κ × μ) O) (mn : Nat) (C : Cfg κ μ) (left : κ × μ) (h : Heap (κ × μ)) (o : O) (init : List (Item (κ × μ))) (al : Nat → Bool) :
    Out (Heap (κ × μ) × O) :=
  match I.step mn h o (.append init al) with
  | .ok s => mergeOn I mn C left s.1 s.2 (I.size o)
  | .exn s => .exn s
  | .ub => .ub

/-- The loop of `upsert` (`flat_map.cpp` 335-343). No allocation fails (see C81 for that). -/
def upsertLoopOn (I : Impl (κ × μ) O) (mn : Nat) (C : Cfg κ μ) (update : μ → μ → μ) : List (κ × μ) → Heap (κ × μ) → O → Out (Heap (κ × μ) × O)
  | [], h, o => .ok (h, o)
  | value :: other, h, o =>
    match findOn I C h o value.1 with
    | none => .ub
    | some it =>
      if it ≠ I.size o then
        match I.slots h o it with
        | none => .ub
        | some e => match I.assignAt h o it (e.1, update e.2 value.2) with
          | some s => upsertLoopOn I mn C update other s.1 s.2
          | none => .ub
      else
        match I.step mn h o (.push (.lit value false) fun _ => false) with
        | .ok s => upsertLoopOn I mn C update other s.1 s.2
        | .exn s => .exn s
        | .ub => .ub

/-- `upsert` (`flat_map.cpp` 329-346). -/
def upsertOn (I : Impl (κ × μ) O) (mn : Nat) (C : Cfg κ μ) (left : κ × μ) (h : Heap (κ × μ)) (o : O) (other : List (κ × μ)) (update : μ → μ → μ) :
    Out (Heap (κ × μ) × O) :=
  match upsertLoopOn I mn C update other h o with
  | .ok s => mergeOn I mn C left s.1 s.2 (I.size o)
  | .exn s => .exn s
  | .ub => .ub

/-- The operations of a map on a container. `left` is the value of elements that were moved from. -/
inductive CMapOp (κ μ : Type) where
  | insert (key : κ) (mapped : μ) (throws : Bool) (al : Nat → Bool)
  | insertRange (init : List (Item (κ × μ))) (left : κ × μ) (al : Nat → Bool)
  | erase (i : Nat)
  | eraseRange (i j : Nat)
  | eraseIf (p : κ × μ → Bool) (mv : κ × μ → κ × μ)
  | upsert (other : List (κ × μ)) (update : μ → μ → μ) (left : κ × μ)
  | reserve (n : Nat) (fails : Bool)

/-- Running one operation (`flat_map.cpp` 232-234 for `reserve`, 275-283 for `erase` and `erase_if`). -/
def cmapStep (I : Impl (κ × μ) O) (mn : Nat) (C : Cfg κ μ) (s : Heap (κ × μ) × O) : CMapOp κ μ → Out (Heap (κ × μ) × O)
  | .insert k v t al =>
    match insertOn I mn C s.1 s.2 k v t al with
    | .ok r => .ok r.1
    | .exn r => .exn r.1
    | .ub => .ub
  | .insertRange init left al => insertRangeOn I mn C left s.1 s.2 init al
  | .erase i => I.step mn s.1 s.2 (.erase i (i + 1))
  | .eraseRange i j => I.step mn s.1 s.2 (.erase i j)
  | .eraseIf p mv => I.step mn s.1 s.2 (.eraseIf p mv)
  | .upsert other update left => upsertOn I mn C left s.1 s.2 other update
  | .reserve n f => I.step mn s.1 s.2 (.reserve n f)

/-! ## Specification -/

/-- What the operation is for a mathematical map; `reserve` is nothing. -/
def CMapOp.op : CMapOp κ μ → Option (Op κ μ)
  | .insert k v _ _ => some (.insert k v)
  | .insertRange init _ _ => some (.insertRange (init.map (·.val)))
  | .erase i => some (.erase i)
  | .eraseRange i j => some (.eraseRange i j)
  | .eraseIf p _ => some (.eraseIf p)
  | .upsert other update _ => some (.upsert other update)
  | .reserve _ _ => none

/-- The elements `S` become `S'`. -/
def CMapOp.Spec (C : Cfg κ μ) (S S' : κ × μ → Prop) (op : CMapOp κ μ) : Prop :=
  match op.op with
  | some u => C.Spec S S' u
  | none => S' = S

/-- The capacity after adding to a full container. -/
def twice (cap : Nat) : Nat := max 1 (2 * cap)

/-- The container gets to `need` elements one at a time: they fit already, or it can double its capacity until they fit. -/
def Grows (q : Containers.Cfg) (cap need : Nat) : Prop :=
  need ≤ cap ∨ q.reservable = true ∧ ∀ j, twice^[j] cap < need → twice^[j + 1] cap ≤ q.mx

/-- There is no room for `n` more elements, and the container will not make room. -/
def NoRoom (q : Containers.Cfg) (s : SV (κ × μ)) (n : Nat) : Prop :=
  s.2 < s.1.length + n ∧ (q.reservable = false ∨ q.mx < max (s.1.length + n) (2 * s.2))

/-- When an operation can be used: iterators are valid; for ranges see `C33_insert_range_partial` and `C33_upsert_partial`. -/
def CMapOp.Pre (C : Cfg κ μ) (q : Containers.Cfg) (s : SV (κ × μ)) : CMapOp κ μ → Prop
  | .insert _ _ _ _ => True
  | .insertRange init _ _ => (q.reservable = false → s.1.length + init.length ≤ s.2 ∨ s.2 < init.length) ∧ C.Sortable (init.map (·.val))
  | .erase i => i < s.1.length
  | .eraseRange i j => i ≤ j ∧ j ≤ s.1.length
  | .eraseIf _ _ => True
  | .upsert other _ _ => Grows q s.2 (s.1.length + other.length) ∧ C.SortableSize other.length ∧ (other.Pairwise fun a b => ¬ C.Same a.1 b.1) ∧
      other.Pairwise fun a b => (∃ x ∈ s.1, C.Same x.1 b.1) → ∃ x ∈ s.1, C.Same x.1 a.1
  | .reserve n _ => n ≤ q.mx ∧ q.reservable = true

/-- When an operation may throw. -/
def CMapOp.MayThrow (C : Cfg κ μ) (q : Containers.Cfg) (s : SV (κ × μ)) : CMapOp κ μ → Prop
  | .insert k _ t al => (∀ e ∈ s.1, ¬ C.Same e.1 k) ∧ (t = true ∨ NoRoom q s 1 ∨ s.2 < s.1.length + 1 ∧ (al 0 = true ∨ al 1 = true))
  | .insertRange init _ al => (∃ e ∈ init, e.throws = true) ∨ NoRoom q s init.length ∨ s.2 < s.1.length + init.length ∧ (al 0 = true ∨ al 1 = true)
  | .reserve n f => s.2 < n ∧ f = true
  | _ => False

/-! ## Searching -/

variable {I : Impl (κ × μ) O} {mn : Nat} {mkA : Bool} {L : Lawful I mn mkA} {C : Cfg κ μ}

theorem slots_memOf {h : Heap (κ × μ)} {o : O} {xs : List (κ × μ)} {cap : Nat} (r : L.Rep h o xs cap) : I.slots h o = memOf xs := Containers.Rep.slots r

theorem size_of {h : Heap (κ × μ)} {o : O} {xs : List (κ × μ)} {cap : Nat} (r : L.Rep h o xs cap) : I.size o = xs.length := r.1.2.2

theorem findOn_eq {h : Heap (κ × μ)} {o : O} {xs : List (κ × μ)} {cap : Nat} (r : L.Rep h o xs cap) (k : κ) : findOn I C h o k = C.find xs k := by
  unfold findOn Cfg.find Cfg.keyedLowerBound
  rw [slots_memOf r, size_of r]
  rfl

theorem lookupOn_eq {h : Heap (κ × μ)} {o : O} {xs : List (κ × μ)} {cap : Nat} (r : L.Rep h o xs cap) (k : κ) : lookupOn I C h o k = C.lookup xs k := by
  unfold lookupOn Cfg.lookup
  rw [findOn_eq r, slots_memOf r, size_of r]
  rfl

theorem upperOn_eq {h : Heap (κ × μ)} {o : O} {xs : List (κ × μ)} {cap : Nat} (r : L.Rep h o xs cap) (k : κ) : upperOn I C h o k = C.keyedUpperBound xs k := by
  unfold upperOn Cfg.keyedUpperBound
  rw [slots_memOf r, size_of r]

theorem cap_le {h : Heap (κ × μ)} {o : O} {xs : List (κ × μ)} {cap : Nat} (r : L.Rep h o xs cap) : xs.length ≤ cap ∧ cap ≤ I.mx := by
  refine ⟨r.2, ?_⟩
  have := (L.wf_range r.1.1).2
  rwa [r.1.2.1] at this

/-! ## Inserting one element -/

/-- What inserting an element into the container does. -/
theorem addOn_spec {h : Heap (κ × μ)} {o : O} {xs : List (κ × μ)} {cap : Nat} (r : L.Rep h o xs cap) (hf : Fresh h) {position : Nat} (hpos : position ≤ xs.length)
    (e : κ × μ) (t : Bool) (al : Nat → Bool) :
    ∃ h' o' b ys cap', addOn I mn h o position ⟨e, t⟩ al = Out.of b ((h', o'), position, true) ∧ L.Rep h' o' ys cap' ∧ Frame (I.own o) h (I.own o') h' ∧
      (b = false → ys = xs.take position ++ e :: xs.drop position) ∧
      (b = true → ys = xs ∧ cap' = cap ∧ (t = true ∨ NoRoom L.cfg (xs, cap) 1 ∨ cap < xs.length + 1 ∧ (al 0 = true ∨ al 1 = true))) ∧ cap ≤ cap' := by
  obtain ⟨h', o', e1, r1, f1, -⟩ := good_step (L := L) r hf (.insert position [⟨e, t⟩] al) ⟨hpos, fun hh => by cases hh⟩
  refine ⟨h', o', (GOp.spec L.cfg (xs, cap) (.insert position [⟨e, t⟩] al)).2, _, _, ?_, r1, f1, ?_, ?_, ?_⟩
  · rw [addOn, e1]
    cases (GOp.spec L.cfg (xs, cap) (.insert position [⟨e, t⟩] al)).2 <;> rfl
  · intro hb
    have := Containers.GOp.spec_seq hb
    rw [this]
    simp [Containers.GOp.seq]
  · simp only [GOp.spec, Containers.specInsert, List.map_cons, List.map_nil, List.length_cons, List.length_nil, List.any_cons, List.any_nil, Bool.or_false,
      Bool.not_not, NoRoom]
    split_ifs with h1 h2 h3
    · intro hb; cases hb
    · intro _
      exact ⟨rfl, rfl, .inl (by simpa using h2)⟩
    · intro _
      refine ⟨rfl, rfl, ?_⟩
      simp only [Bool.or_eq_true, Bool.not_eq_true', Bool.and_eq_true, decide_eq_true_eq] at h3
      have hl : cap < xs.length + 1 := by omega
      rcases h3 with (((h3 | h3) | h3) | h3) | h3
      · exact .inr (.inl ⟨hl, .inl h3⟩)
      · exact .inr (.inr ⟨hl, .inl h3.2⟩)
      · exact .inr (.inl ⟨hl, .inr (by omega)⟩)
      · exact .inr (.inr ⟨hl, .inr h3⟩)
      · exact .inl h3
    · intro hb; cases hb
  · simp only [GOp.spec, Containers.specInsert, List.map_cons, List.map_nil, List.length_cons, List.length_nil]
    split_ifs <;> dsimp only <;> omega

/-- `insert` of one element. -/
theorem insertOn_spec (ho : StrictWeak C.lt) (hmx : C.mx = I.mx) {h : Heap (κ × μ)} {o : O} {xs : List (κ × μ)} {cap : Nat} (r : L.Rep h o xs cap) (hf : Fresh h)
    {S : κ × μ → Prop} (hxs : C.Lists S xs) (k : κ) (v : μ) (t : Bool) (al : Nat → Bool) :
    ∃ h' o' b ys cap' i new, insertOn I mn C h o k v t al = Out.of b ((h', o'), i, new) ∧ L.Rep h' o' ys cap' ∧ Frame (I.own o) h (I.own o') h' ∧
      (b = false → C.lazyInsert xs k v = some (ys, i, new) ∧ (xs.length < C.mx ∨ ∃ e, S e ∧ C.Same e.1 k)) ∧
      (b = true → ys = xs ∧ cap' = cap ∧ (∀ e ∈ xs, ¬ C.Same e.1 k) ∧
        (t = true ∨ NoRoom L.cfg (xs, cap) 1 ∨ cap < xs.length + 1 ∧ (al 0 = true ∨ al 1 = true))) ∧ cap ≤ cap' := by
  have hs := sorted_of_increasing ho hxs.increasing
  obtain ⟨ht, hd⟩ := upper_take ho hs k
  have e := keyedUpperBound_eq ho hs k
  have hle : (xs.countP fun e => !C.lt k e.1) ≤ xs.length := List.countP_le_length
  generalize (xs.countP fun e => !C.lt k e.1) = c at *
  -- the element is new
  have fresh : (∀ x ∈ xs.take c, C.lt x.1 k = true) → insertOn I mn C h o k v t al = addOn I mn h o c ⟨(k, v), t⟩ al →
      (C.lazyInsert xs k v = do let ys ← C.insertAt xs c (k, v); some (ys, c, true)) → ∃ h' o' b ys cap' i new, insertOn I mn C h o k v t al = Out.of b ((h', o'), i, new) ∧
      L.Rep h' o' ys cap' ∧ Frame (I.own o) h (I.own o') h' ∧
      (b = false → C.lazyInsert xs k v = some (ys, i, new) ∧ (xs.length < C.mx ∨ ∃ e, S e ∧ C.Same e.1 k)) ∧
      (b = true → ys = xs ∧ cap' = cap ∧ (∀ e ∈ xs, ¬ C.Same e.1 k) ∧
        (t = true ∨ NoRoom L.cfg (xs, cap) 1 ∨ cap < xs.length + 1 ∧ (al 0 = true ∨ al 1 = true))) ∧ cap ≤ cap' := by
    intro h1 h2 h3
    obtain ⟨h', o', b, ys, cap', e1, r1, f1, g1, g2, g3⟩ := addOn_spec (L := L) r hf hle (k, v) t al
    refine ⟨h', o', b, ys, cap', c, true, h2.trans e1, r1, f1, fun hb => ?_, fun hb => ⟨(g2 hb).1, (g2 hb).2.1, fun x hx hsame => ?_, (g2 hb).2.2⟩, g3⟩
    · have hy := g1 hb
      have hc := cap_le r1
      have hlen : ys.length = xs.length + 1 := by
        rw [hy]; simp only [List.length_append, List.length_take, List.length_cons, List.length_drop]; omega
      refine ⟨?_, .inl (by omega)⟩
      rw [h3, Cfg.insertAt, if_pos (by omega), hy]; rfl
    · rw [← List.take_append_drop c xs, List.mem_append] at hx
      rcases hx with hm | hm
      · have := h1 x hm; rw [hsame.1] at this; cases this
      · have := hd x hm; rw [hsame.2] at this; cases this
  by_cases hc : c = 0
  · refine fresh (by subst hc; simp) ?_ ?_
    · rw [insertOn, upperOn_eq r, e]; simp only [if_pos hc]
    · rw [Cfg.lazyInsert, e]; simp only [Option.bind_eq_bind, Option.bind_some, if_pos hc]
  · have hx : xs[c - 1]? = some (xs[c - 1]'(by omega)) := List.getElem?_eq_getElem (by omega)
    have hlast : xs[c - 1]'(by omega) ∈ xs.take c := by
      rw [List.mem_take_iff_getElem]
      exact ⟨c - 1, by omega, rfl⟩
    have hsl : I.slots h o (c - 1) = some (xs[c - 1]'(by omega)) := by rw [slots_memOf r]; exact hx
    by_cases hl : C.lt (xs[c - 1]'(by omega)).1 k = true
    · refine fresh ?_ ?_ ?_
      · intro x hx
        obtain ⟨i, hi, rfl⟩ := List.mem_take_iff_getElem.1 hx
        by_cases hic : i = c - 1
        · subst hic; exact hl
        · exact ho.trans (List.pairwise_iff_getElem.1 hxs.increasing i (c - 1) (by omega) (by omega) (by omega)) hl
      · rw [insertOn, upperOn_eq r, e]; simp only [if_neg hc, hsl, if_pos hl]
      · rw [Cfg.lazyInsert, e]; simp only [Option.bind_eq_bind, Option.bind_some, if_neg hc, hx, if_pos hl]
    · refine ⟨h, o, false, xs, cap, c - 1, false, ?_, r, Frame.refl _ _, fun _ => ⟨?_, .inr ⟨_, (hxs.mem _).1 (List.getElem_mem _), ⟨by simpa using hl, ht _ hlast⟩⟩⟩,
        fun hb => (by cases hb), Nat.le_refl _⟩
      · rw [insertOn, upperOn_eq r, e]; simp only [if_neg hc, hsl, if_neg hl, Out.of_false]
      · rw [Cfg.lazyInsert, e]; simp only [Option.bind_eq_bind, Option.bind_some, if_neg hc, hx, if_neg hl]

/-! ## Sorting and merging -/

theorem sortOn_spec (hC : C.Ok) {h : Heap (κ × μ)} {o : O} {xs ys : List (κ × μ)} {cap : Nat} (r : L.Rep h o (xs ++ ys) cap) (hn : C.Sortable ys) :
    ∃ h' o' ys', sortOn I C h o xs.length = .ok (h', o') ∧ L.Rep h' o' (xs ++ ys') cap ∧ Frame (I.own o) h (I.own o') h' ∧
      C.sortFrom (xs ++ ys) xs.length = some (xs ++ ys') ∧ IsSort C.elt ys ys' ∧ I.ptr o' = I.ptr o := by
  obtain ⟨h1, h2⟩ := seg_append.1 (memOf_seg (xs ++ ys))
  rw [Nat.zero_add] at h2
  obtain ⟨m', ys', e, s, so, f⟩ := hC.ska h2 hn
  have hlen : (xs ++ ys').length = (xs ++ ys).length := by rw [List.length_append, List.length_append, so.perm.length_eq]
  have hseg : Seg m' 0 (xs ++ ys') := by
    refine seg_append.2 ⟨h1.frame f fun i hi => ?_, by rwa [Nat.zero_add]⟩
    simp only [InRange]; omega
  have hm : m' = fun k => (xs ++ ys')[k]? := Containers.cells_of_seg (by
    intro a ha; simp only [InRange] at ha; rw [List.length_append]; omega) hlen hseg f
  obtain ⟨r', fr⟩ := Containers.Rep.put (ys := xs ++ ys') r hlen
  have hd : (xs ++ ys).length - xs.length = ys.length := by rw [List.length_append]; omega
  refine ⟨_, _, ys', ?_, r', fr, ?_, so, (L.put_law _ r.1.1).2.2.2.1⟩
  · rw [sortOn, Impl.rearrange, size_of r, slots_memOf r]
    simp only [hd, e, Option.map_some, hm]
  · rw [Cfg.sortFrom, hd, e]
    simp only [Option.bind_eq_bind, Option.bind_some]
    rw [← hlen, readBack_seg hseg]

theorem mergeOn_spec (hC : C.Ok) (hk : C.mv ≠ .clearSelf) (left : κ × μ) {h : Heap (κ × μ)} {o : O} {xs ys : List (κ × μ)} {cap : Nat} (r : L.Rep h o (xs ++ ys) cap)
    (hf : Fresh h) (hxs : xs.Pairwise fun x y => C.lt x.1 y.1 = true) (hn : C.Sortable ys) :
    ∃ h' o' zs, mergeOn I mn C left h o xs.length = .ok (h', o') ∧ L.Rep h' o' zs cap ∧ Frame (I.own o) h (I.own o') h' ∧
      C.mergeSortedAndUnsorted false (xs ++ ys) xs.length = some zs ∧ I.ptr o' = I.ptr o := by
  obtain ⟨h1, o1, ys', e1, r1, f1, e1', so, p1⟩ := sortOn_spec (L := L) hC r hn
  obtain ⟨s1, s2⟩ := seg_append.1 (objs_seg (xs ++ ys'))
  obtain ⟨zs, hu, m', e2, t2, -, live⟩ := C44_unique_inplace_merge_partial (tmp := (xs ++ ys').length) hC.elt_order hk s1 s2 hxs so.sorted (objs_raw _ _)
  simp only [Nat.zero_add, ← List.length_append] at e2
  obtain ⟨ws, hw, hwl⟩ := leftBehind_seg (left := left) t2 live
  obtain ⟨r2, f2⟩ := Containers.Rep.put (ys := zs ++ ws) r1 hwl
  have p2 := (L.put_law (fun k => (zs ++ ws)[k]?) r1.1.1).2.2.2.1
  obtain ⟨h3, o3, e3, r3, f3, pr⟩ := good_step (L := L) r2 (f2.fresh (f1.fresh hf)) (.eraseToEnd zs.length) (by
    show zs.length ≤ (zs ++ ws).length
    rw [List.length_append]; omega)
  refine ⟨h3, o3, zs, ?_, ?_, (f1.trans f2).trans f3, ?_, ?_⟩
  · rw [mergeOn, e1]
    simp only [size_of r1, slots_memOf r1]
    have : (fun a => (memOf (xs ++ ys') a).map Obj.val) = objs (xs ++ ys') := rfl
    rw [this, e2]
    simp only [hw]
    exact e3
  · simpa [GOp.spec] using r3
  · rw [Cfg.mergeSortedAndUnsorted, e1']
    simp only [Option.bind_eq_bind, Option.bind_some, Bool.false_eq_true, if_false]
    rw [e2]
    simp only [Option.bind_some]
    exact readBack_seg t2
  · rw [← p1, ← p2]
    refine pr.1 ?_
    rw [r2.mem]; rfl

/-! ## Ranges -/

theorem insertRangeOn_spec (hC : C.Ok) (hk : C.mv ≠ .clearSelf) (hmx : C.mx = I.mx) (left : κ × μ) {h : Heap (κ × μ)} {o : O} {xs : List (κ × μ)} {cap : Nat}
    (r : L.Rep h o xs cap) (hf : Fresh h) (hxs : xs.Pairwise fun x y => C.lt x.1 y.1 = true) (init : List (Item (κ × μ))) (al : Nat → Bool)
    (hfit : I.reservable = false → xs.length + init.length ≤ cap ∨ cap < init.length) (hn : C.Sortable (init.map (·.val))) :
    ∃ h' o' b zs cap', insertRangeOn I mn C left h o init al = Out.of b (h', o') ∧ L.Rep h' o' zs cap' ∧ Frame (I.own o) h (I.own o') h' ∧
      (b = false → C.insertRange false xs (init.map (·.val)) = some zs ∧ xs.length + (init.map (·.val)).length ≤ C.mx) ∧
      (b = true → zs = xs ∧ cap' = cap ∧ ((∃ e ∈ init, e.throws = true) ∨ NoRoom L.cfg (xs, cap) init.length ∨
        cap < xs.length + init.length ∧ (al 0 = true ∨ al 1 = true))) := by
  obtain ⟨h1, o1, e1, r1, f1, -⟩ := good_step (L := L) r hf (.append init al) hfit
  cases hb : (GOp.spec L.cfg (xs, cap) (.append init al)).2 with
  | true =>
    rw [hb] at e1
    refine ⟨h1, o1, true, _, _, ?_, r1, f1, (fun hh => by cases hh), fun _ => ?_⟩
    · rw [insertRangeOn, e1]; rfl
    · simp only [GOp.spec, Containers.specInsert, List.length_map, NoRoom] at hb ⊢
      split_ifs at hb ⊢ with g1 g2 g3
      · refine ⟨rfl, rfl, .inl ?_⟩
        simpa using g2
      · refine ⟨rfl, rfl, ?_⟩
        simp only [Bool.or_eq_true, Bool.not_eq_true', Bool.and_eq_true, decide_eq_true_eq, Bool.not_eq_false', List.any_eq_true] at g3
        have hl : cap < xs.length + init.length := by omega
        rcases g3 with (((h3 | h3) | h3) | h3) | h3
        · exact .inr (.inl ⟨hl, .inl h3⟩)
        · exact .inr (.inr ⟨hl, .inl h3.2⟩)
        · exact .inr (.inl ⟨hl, .inr h3⟩)
        · exact .inr (.inr ⟨hl, .inr h3⟩)
        · exact .inl (by simpa using h3)
  | false =>
    have hsq := Containers.GOp.spec_seq hb
    rw [hb] at e1
    rw [hsq] at r1
    generalize (GOp.spec L.cfg (xs, cap) (.append init al)).1.2 = cap' at r1
    have r1 : L.Rep h1 o1 (xs ++ init.map (·.val)) cap' := r1
    obtain ⟨h2, o2, zs, e2, r2, f2, e3, -⟩ := mergeOn_spec (L := L) hC hk left r1 (f1.fresh hf) hxs hn
    have hc := cap_le r1
    rw [List.length_append] at hc
    have hroom : xs.length + (init.map (·.val)).length ≤ C.mx := by omega
    refine ⟨h2, o2, false, zs, cap', ?_, r2, f1.trans f2, fun _ => ⟨?_, hroom⟩, (fun hh => by cases hh)⟩
    · rw [insertRangeOn, e1, size_of r]; exact e2
    · rw [Cfg.insertRange, Cfg.append, if_pos hroom]; exact e3

theorem Grows.mono {q : Containers.Cfg} {cap n k : Nat} (h : Grows q cap n) (hk : k ≤ n) : Grows q cap k := by
  rcases h with h | ⟨h1, h2⟩
  · exact .inl (by omega)
  · exact .inr ⟨h1, fun j hj => h2 j (by omega)⟩

theorem upsertLoopOn_spec {update : μ → μ → μ} : ∀ (other : List (κ × μ)) {h : Heap (κ × μ)} {o : O} {xs zs : List (κ × μ)} {cap : Nat}, L.Rep h o xs cap → Fresh h →
    Grows L.cfg cap (xs.length + other.length) → C.upsertLoop update xs other = some zs →
    ∃ h' o' cap', upsertLoopOn I mn C update other h o = .ok (h', o') ∧ L.Rep h' o' zs cap' ∧ Frame (I.own o) h (I.own o') h'
  | [], h, o, xs, zs, cap, r, _, _, e => by
    rw [Cfg.upsertLoop] at e
    cases e
    exact ⟨h, o, cap, rfl, r, Frame.refl _ _⟩
  | value :: other, h, o, xs, zs, cap, r, hf, hg, e => by
    rw [Cfg.upsertLoop] at e
    simp only [Option.bind_eq_bind] at e
    obtain ⟨it, e1, e⟩ := Option.bind_eq_some_iff.1 e
    rw [upsertLoopOn, findOn_eq r, e1]
    simp only [size_of r, slots_memOf r]
    rw [List.length_cons] at hg
    by_cases hit : it ≠ xs.length
    · rw [if_pos hit] at e ⊢
      obtain ⟨x, e2, e⟩ := Option.bind_eq_some_iff.1 e
      have e2' : memOf xs it = some x := e2
      have hlt : it < xs.length := (List.getElem?_eq_some_iff.1 e2).1
      obtain ⟨h1, o1, e3, r1, f1⟩ := Containers.Rep.assignAt r hlt (x.1, update x.2 value.2)
      obtain ⟨h2, o2, cap2, e4, r2, f2⟩ := upsertLoopOn_spec other r1 (f1.fresh hf) (hg.mono (by rw [List.length_set]; omega)) e
      refine ⟨h2, o2, cap2, ?_, r2, f1.trans f2⟩
      simp only [e2', e3]
      exact e4
    · rw [if_neg hit] at e ⊢
      obtain ⟨ys, e2, e⟩ := Option.bind_eq_some_iff.1 e
      have hys : ys = xs ++ [value] := by
        rw [Cfg.append] at e2
        split at e2
        · exact (Option.some.inj e2).symm
        · cases e2
      subst hys
      have hc := cap_le r
      have hpre : Containers.pushPre L.cfg (xs, cap) := by
        intro _ hfull _
        have hfull : xs.length = cap := hfull
        rcases hg with hg | ⟨-, hg⟩
        · omega
        · exact hg 0 (by simp only [Function.iterate_zero, id]; omega)
      obtain ⟨h1, o1, e3, r1, f1, -⟩ := good_step (L := L) r hf (.push (.lit value false) fun _ => false) hpre
      have hsp : ∃ cap', GOp.spec L.cfg (xs, cap) (.push (.lit value false) fun _ => false) = ((xs ++ [value], cap'), false) ∧
          Grows L.cfg cap' ((xs ++ [value]).length + other.length) := by
        rw [List.length_append, List.length_singleton, show xs.length + 1 + other.length = xs.length + (other.length + 1) by omega]
        simp only [GOp.spec, Containers.specPush]
        have hm0 : L.cfg.mx ≠ 0 := by
          intro h0
          have h0 : I.mx = 0 := h0
          rcases hg with hg | ⟨-, hg⟩
          · omega
          · have := hg 0 (by simp only [Function.iterate_zero, id]; omega)
            simp only [Function.iterate_succ, Function.iterate_zero, Function.comp, id, twice, Lawful.cfg] at this
            omega
        rw [if_neg hm0]
        by_cases hlt : xs.length < cap
        · rw [if_pos hlt]
          exact ⟨cap, by simp, hg⟩
        · rw [if_neg hlt]
          rcases hg with hg | ⟨hg1, hg2⟩
          · omega
          · refine ⟨twice cap, ?_, .inr ⟨hg1, fun j hj => ?_⟩⟩
            · simp [hg1, twice]
            · have := hg2 (j + 1) (by rw [Function.iterate_succ_apply]; exact hj)
              rwa [Function.iterate_succ_apply] at this
      obtain ⟨cap', hsp, hg'⟩ := hsp
      rw [hsp] at e3 r1
      obtain ⟨h2, o2, cap2, e4, r2, f2⟩ := upsertLoopOn_spec other r1 (f1.fresh hf) hg' e
      refine ⟨h2, o2, cap2, ?_, r2, f1.trans f2⟩
      rw [e3]
      exact e4

theorem le_twice (cap : Nat) : ∀ j, cap + j ≤ twice^[j] cap
  | 0 => Nat.le_refl _
  | j + 1 => by
    have := le_twice cap j
    rw [Function.iterate_succ_apply']
    unfold twice at *
    omega

theorem Grows.le {q : Containers.Cfg} {cap n : Nat} (h : Grows q cap n) (hc : cap ≤ q.mx) : n ≤ q.mx := by
  rcases h with h | ⟨-, h⟩
  · omega
  · have hex : ∃ j, n ≤ twice^[j] cap := ⟨n, by have := le_twice cap n; omega⟩
    have hf := Nat.find_spec hex
    cases hj : Nat.find hex with
    | zero => rw [hj] at hf; simp only [Function.iterate_zero, id] at hf; omega
    | succ j =>
      have hmin := Nat.find_min hex (m := j) (by omega)
      have := h j (by omega)
      rw [hj] at hf
      omega

/-! ## The theorems -/

/-- One operation on a map, whatever the state and the capacity of the container and whichever allocations fail: it does what it does to a mathematical
map, or it throws and changes nothing. It throws only if the container has to grow and cannot, or if making an element throws. -/
theorem C100_step_partial (hC : C.Ok) (hk : C.mv ≠ .clearSelf) (hmx : C.mx = I.mx) {h : Heap (κ × μ)} {o : O} {xs : List (κ × μ)} {cap : Nat} (r : L.Rep h o xs cap)
    (hf : Fresh h) {S : κ × μ → Prop} (hxs : C.Lists S xs) (op : CMapOp κ μ) (hp : op.Pre C L.cfg (xs, cap)) :
    ∃ h' o' b zs cap', cmapStep I mn C (h, o) op = Out.of b (h', o') ∧ L.Rep h' o' zs cap' ∧ Frame (I.own o) h (I.own o') h' ∧
      (b = false → ∃ S', C.Lists S' zs ∧ op.Spec C S S') ∧ (b = true → zs = xs ∧ cap' = cap ∧ op.MayThrow C L.cfg (xs, cap)) := by
  cases op with
  | insert k v t al =>
    obtain ⟨h', o', b, ys, cap', i, new, e, r', f, g1, g2, g3⟩ := insertOn_spec (L := L) hC.order hmx r hf hxs k v t al
    refine ⟨h', o', b, ys, cap', ?_, r', f, fun hb => ?_, g2⟩
    · rw [cmapStep, e]; cases b <;> rfl
    · obtain ⟨e1, hroom⟩ := g1 hb
      obtain ⟨ys', i', b', S', e2, h1, h2, -⟩ := C33_insert hC.order hxs k v hroom
      rw [e1] at e2
      cases e2
      exact ⟨S', h1, h2⟩
  | insertRange init left al =>
    obtain ⟨h', o', b, zs, cap', e, r', f, g1, g2⟩ := insertRangeOn_spec (L := L) hC hk hmx left r hf hxs.increasing init al hp.1 hp.2
    refine ⟨h', o', b, zs, cap', e, r', f, fun hb => ?_, g2⟩
    obtain ⟨e1, hroom⟩ := g1 hb
    obtain ⟨ys, S', e2, h1, h2⟩ := C33_insert_range_partial hC hk hxs hroom hp.2
    rw [e1] at e2
    cases e2
    exact ⟨S', h1, h2⟩
  | erase i =>
    have hp : i < xs.length := hp
    obtain ⟨h', o', e, r', f, -⟩ := good_step (L := L) r hf (.erase i (i + 1)) ⟨Nat.le_succ i, hp⟩
    refine ⟨h', o', false, _, _, e, r', f, fun _ => ?_, (fun hh => by cases hh)⟩
    obtain ⟨ys, S', e1, h1, h2⟩ := C33_erase hC.order hxs hp
    rw [eraseAt, if_pos hp] at e1
    cases e1
    refine ⟨S', ?_, h2⟩
    rwa [List.eraseIdx_eq_take_drop_succ] at h1
  | eraseRange i j =>
    obtain ⟨h', o', e, r', f, -⟩ := good_step (L := L) r hf (.erase i j) hp
    refine ⟨h', o', false, _, _, e, r', f, fun _ => ?_, (fun hh => by cases hh)⟩
    obtain ⟨ys, S', e1, h1, h2⟩ := C33_erase_range hC.order hxs hp.1 hp.2
    rw [eraseBetween, if_pos (show i ≤ j ∧ j ≤ xs.length from hp)] at e1
    cases e1
    exact ⟨S', h1, h2⟩
  | eraseIf p mv =>
    obtain ⟨h', o', e, r', f, -⟩ := good_step (L := L) r hf (.eraseIf p mv) trivial
    refine ⟨h', o', false, _, _, e, r', f, fun _ => ?_, (fun hh => by cases hh)⟩
    obtain ⟨ys, S', e1, h1, h2⟩ := C33_erase_if hxs p
    cases e1
    exact ⟨S', h1, h2⟩
  | upsert other update left =>
    obtain ⟨hg, hn, hd, hE⟩ := hp
    have hroom : xs.length + other.length ≤ C.mx := by
      rw [hmx]; exact hg.le (cap_le r).2
    obtain ⟨ys, tail, e, hi⟩ := upsertLoop_spec hC.order (update := update) (E := False) hxs.increasing other [] xs [] ⟨rfl, fun i _ _ => .inl ⟨rfl, fun _ o ho => by simp at ho⟩,
      fun t ht => by simp at ht, fun o ho => by simp at ho, by simp⟩ hd (fun h => h.elim) (by simpa using hroom)
    rw [List.nil_append] at hi
    rw [List.append_nil] at e
    obtain ⟨h1, o1, cap1, e1, r1, f1⟩ := upsertLoopOn_spec (L := L) other r hf hg e
    obtain ⟨h2, o2, zs, e2, r2, f2, e3, -⟩ := mergeOn_spec (L := L) hC hk left r1 (f1.fresh hf) (hi.increasing hxs.increasing) (.inl (hn.mono hi.short))
    refine ⟨h2, o2, false, zs, cap1, ?_, r2, f1.trans f2, fun _ => ?_, (fun hh => by cases hh)⟩
    · rw [cmapStep, upsertOn, e1]
      simp only [size_of r]
      rw [← hi.len]
      exact e2
    · obtain ⟨ys', S', e4, h4, h5⟩ := C33_upsert_partial hC hk hxs update hroom hn hd (hE.imp fun {a b} hab ⟨x, hx, hs⟩ => by
        obtain ⟨y, hy, hs'⟩ := hab ⟨x, (hxs.mem x).2 hx, hs⟩
        exact ⟨y, (hxs.mem y).1 hy, hs'⟩)
      have : C.upsert xs other update = some zs := by
        rw [Cfg.upsert]
        simp only [Option.bind_eq_bind]
        rw [e, Option.bind_some, ← hi.len, e3]
      rw [this] at e4
      cases e4
      exact ⟨S', h4, h5⟩
  | reserve n f =>
    obtain ⟨h', o', e, r', fr, -⟩ := good_step (L := L) r hf (.reserve n f) hp
    refine ⟨h', o', (GOp.spec L.cfg (xs, cap) (.reserve n f)).2, xs, (GOp.spec L.cfg (xs, cap) (.reserve n f)).1.2, e, ?_, fr, fun _ => ⟨S, hxs, rfl⟩, fun hb => ⟨rfl, ?_⟩⟩
    · have : (GOp.spec L.cfg (xs, cap) (.reserve n f)).1.1 = xs := by
        simp only [GOp.spec]; split_ifs <;> rfl
      rwa [this] at r'
    · simp only [GOp.spec, CMapOp.MayThrow] at hb ⊢
      split_ifs at hb ⊢ with h1 h2
      exact ⟨rfl, by omega, h2⟩

/-- Every operation of a history can be used when its turn comes, whatever the ones before it did. -/
def CMapSafe (C : Cfg κ μ) (q : Containers.Cfg) : List (κ × μ) → Nat → List (CMapOp κ μ) → Prop
  | _, _, [] => True
  | xs, cap, op :: ops => op.Pre C q (xs, cap) ∧
      ∀ zs cap', zs.length ≤ cap' → cap' ≤ q.mx → ((zs = xs ∧ cap' = cap) ∨ ∃ S', C.Lists S' zs ∧ op.Spec C (· ∈ xs) S') → CMapSafe C q zs cap' ops

/-- The mathematical map after a history in which some operations threw. -/
inductive CMapRun (C : Cfg κ μ) : (κ × μ → Prop) → List (CMapOp κ μ) → (κ × μ → Prop) → List Bool → Prop
  | nil (S : κ × μ → Prop) : CMapRun C S [] S []
  | did {S S' S'' : κ × μ → Prop} {op : CMapOp κ μ} {ops : List (CMapOp κ μ)} {ts : List Bool} : op.Spec C S S' → CMapRun C S' ops S'' ts → CMapRun C S (op :: ops) S'' (false :: ts)
  | threw {S S' : κ × μ → Prop} {op : CMapOp κ μ} {ops : List (CMapOp κ μ)} {ts : List Bool} : CMapRun C S ops S' ts → CMapRun C S (op :: ops) S' (true :: ts)

/-- Any history of a map on any of the containers, whichever allocations fail: the map is the mathematical map that has made the same history without the
operations that threw, and looking up a key gives what that maps the key to. -/
theorem C100_history_partial (hC : C.Ok) (hk : C.mv ≠ .clearSelf) (hmx : C.mx = I.mx) : ∀ (ops : List (CMapOp κ μ)) {h : Heap (κ × μ)} {o : O} {xs : List (κ × μ)} {cap : Nat},
    L.Rep h o xs cap → Fresh h → C.Lists (· ∈ xs) xs → CMapSafe C L.cfg xs cap ops →
    ∃ h' o' zs cap' S' ts, runHist (cmapStep I mn C) (h, o) ops = some ((h', o'), ts) ∧ L.Rep h' o' zs cap' ∧ CMapRun C (· ∈ xs) ops S' ts ∧ C.Lists S' zs ∧
      (∀ k, ∃ v?, lookupOn I C h' o' k = some v? ∧ ∀ v, v? = some v ↔ ∃ k', S' (k', v) ∧ C.Same k' k) ∧ Frame (I.own o) h (I.own o') h'
  | [], h, o, xs, cap, r, _, hxs, _ => by
    refine ⟨h, o, xs, cap, _, [], rfl, r, .nil _, hxs, fun k => ?_, Frame.refl _ _⟩
    rw [lookupOn_eq r]
    exact C33_lookup hC.order hxs k
  | op :: ops, h, o, xs, cap, r, hf, hxs, hs => by
    obtain ⟨h1, o1, b, zs, cap1, e1, r1, f1, g1, g2⟩ := C100_step_partial (L := L) hC hk hmx r hf hxs op hs.1
    cases b with
    | false =>
      obtain ⟨S1, l1, sp1⟩ := g1 rfl
      have hS : S1 = (· ∈ zs) := by funext e; exact propext (l1.mem e).symm
      obtain ⟨h2, o2, ws, cap2, S2, ts, e2, r2, sp2, l2, look, f2⟩ := C100_history_partial hC hk hmx ops r1 (f1.fresh hf) (hS ▸ l1) (hs.2 _ _ (cap_le r1).1 (cap_le r1).2 (.inr ⟨S1, l1, sp1⟩))
      refine ⟨h2, o2, ws, cap2, S2, false :: ts, ?_, r2, .did sp1 (hS ▸ sp2), l2, look, f1.trans f2⟩
      rw [runHist, e1]
      simp only [Out.of_false, e2, Option.map_some]
    | true =>
      obtain ⟨rfl, rfl, -⟩ := g2 rfl
      obtain ⟨h2, o2, ws, cap2, S2, ts, e2, r2, sp2, l2, look, f2⟩ := C100_history_partial hC hk hmx ops r1 (f1.fresh hf) hxs (hs.2 _ _ (cap_le r1).1 (cap_le r1).2 (.inl ⟨rfl, rfl⟩))
      refine ⟨h2, o2, ws, cap2, S2, true :: ts, ?_, r2, .threw sp2, l2, look, f1.trans f2⟩
      rw [runHist, e1]
      simp only [Out.of_true, e2, Option.map_some]

/-- Looking up a key gives what the mathematical map gives, and changes nothing. -/
theorem C100_lookup (hC : C.Ok) {h : Heap (κ × μ)} {o : O} {xs : List (κ × μ)} {cap : Nat} (r : L.Rep h o xs cap) {S : κ × μ → Prop} (hxs : C.Lists S xs) (k : κ) :
    ∃ v?, lookupOn I C h o k = some v? ∧ ∀ v, v? = some v ↔ ∃ k', S (k', v) ∧ C.Same k' k := by
  rw [lookupOn_eq r]
  exact C33_lookup hC.order hxs k

/-- What `lazy_insert` returns if it returns: whether the key is new, and a position at which the container then has an element with the key. -/
theorem C100_insert (hC : C.Ok) (hmx : C.mx = I.mx) {h : Heap (κ × μ)} {o : O} {xs : List (κ × μ)} {cap : Nat} (r : L.Rep h o xs cap) (hf : Fresh h) {S : κ × μ → Prop}
    (hxs : C.Lists S xs) (k : κ) (v : μ) (t : Bool) (al : Nat → Bool) : ∃ h' o' b i new, insertOn I mn C h o k v t al = Out.of b ((h', o'), i, new) ∧
    (b = false → (new = true ↔ ∀ e, S e → ¬ C.Same e.1 k) ∧ ∃ e, I.slots h' o' i = some e ∧ C.Same e.1 k ∧ (new = true → e = (k, v)) ∧ (new = false → S e)) := by
  obtain ⟨h', o', b, ys, cap', i, new, e, r', f, g1, g2, g3⟩ := insertOn_spec (L := L) hC.order hmx r hf hxs k v t al
  refine ⟨h', o', b, i, new, e, fun hb => ?_⟩
  obtain ⟨e1, hroom⟩ := g1 hb
  obtain ⟨ys', i', b', S', e2, h1, h2, hrest⟩ := C33_insert hC.order hxs k v hroom
  rw [e1] at e2
  cases e2
  obtain ⟨⟨e0, he0, hsame⟩, hnew, hiff⟩ := hrest
  rw [slots_memOf r']
  refine ⟨hiff, e0, he0, hsame, fun hn => ?_, fun hn => ?_⟩
  · have := hnew hn
    rw [he0] at this
    exact Option.some.inj this
  · have hmem : S' e0 := (h1.mem e0).1 (List.mem_of_getElem? he0)
    rcases (h2 e0).1 hmem with hS | ⟨-, hno⟩
    · exact hS
    · rw [hn] at hiff
      exact absurd (hiff.2 hno) (by decide)

/-- Different keys are not more than all the keys. -/
theorem distinct_le {C : Cfg κ μ} (h : StrictWeak C.lt) : ∀ (zs ks : List κ), (zs.Pairwise fun x y => ¬ C.Same x y) → (∀ z ∈ zs, ∃ k ∈ ks, C.Same k z) → zs.length ≤ ks.length
  | [], ks, _, _ => Nat.zero_le _
  | z :: zs, ks, hpw, hm => by
    obtain ⟨hz, hpw⟩ := List.pairwise_cons.1 hpw
    obtain ⟨k', hk', hs⟩ := hm z List.mem_cons_self
    obtain ⟨l, r, rfl⟩ := List.append_of_mem hk'
    have := distinct_le h zs (l ++ r) hpw fun w hw => by
      obtain ⟨k2, hk2, hs2⟩ := hm w (List.mem_cons_of_mem _ hw)
      have hne : k2 ≠ k' := fun hc => by
        subst hc
        exact hz w hw ⟨h.negTrans hs2.1 hs.2, h.negTrans hs.1 hs2.2⟩
      refine ⟨k2, ?_, hs2⟩
      rcases List.mem_append.1 hk2 with hk2 | hk2
      · exact List.mem_append_left _ hk2
      · rcases List.mem_cons.1 hk2 with hc | hk2
        · exact absurd hc hne
        · exact List.mem_append_right _ hk2
    simp only [List.length_append, List.length_cons] at this ⊢
    omega

/-- If the greatest size is the number of keys and that much has been reserved, every `insert` succeeds whatever memory there is. -/
theorem C100_reserved (hC : C.Ok) (hmx : C.mx = I.mx) (keys : List κ) (hall : ∀ k, ∃ k' ∈ keys, C.Same k' k) (hkeys : keys.length ≤ I.mx) {h : Heap (κ × μ)} {o : O}
    {xs : List (κ × μ)} (r : L.Rep h o xs I.mx) (hf : Fresh h) {S : κ × μ → Prop} (hxs : C.Lists S xs) (k : κ) (v : μ) (al : Nat → Bool) :
    ∃ h' o' i new zs S', insertOn I mn C h o k v false al = .ok ((h', o'), i, new) ∧ L.Rep h' o' zs I.mx ∧ Fresh h' ∧ C.Lists S' zs ∧ C.Spec S S' (.insert k v) := by
  obtain ⟨h', o', b, ys, cap', i, new, e, r', f, g1, g2, g3⟩ := insertOn_spec (L := L) hC.order hmx r hf hxs k v false al
  have hroom : (∀ e ∈ xs, ¬ C.Same e.1 k) → xs.length + 1 ≤ I.mx := by
    intro hno
    have := distinct_le hC.order (k :: xs.map (·.1)) keys (List.pairwise_cons.2 ⟨fun y hy => by
      obtain ⟨e, he, rfl⟩ := List.mem_map.1 hy
      exact fun hs => hno e he ⟨hs.2, hs.1⟩, List.pairwise_map.2 (hxs.increasing.imp fun {a b} hab hs => by rw [hs.1] at hab; cases hab)⟩) fun z _ => hall z
    simp only [List.length_cons, List.length_map] at this
    omega
  cases b with
  | true =>
    obtain ⟨-, -, hno, hr⟩ := g2 rfl
    have := hroom hno
    rcases hr with hr | hr | hr
    · cases hr
    · have := hr.1; dsimp only at this; omega
    · omega
  | false =>
    obtain ⟨e1, hroom'⟩ := g1 rfl
    obtain ⟨ys', i', b', S', e2, h1, h2, -⟩ := C33_insert hC.order hxs k v hroom'
    rw [e1] at e2
    cases e2
    have := (cap_le r').2
    exact ⟨h', o', i, new, ys, S', e, (show cap' = I.mx by omega) ▸ r', f.fresh hf, h1, h2⟩

/-! ## Where the claim fails -/

/-- `flat_map` is on a vector whose greatest size is the number of values of the key type (`flat_map.cpp` 408-418), so that every key fits. But a vector
doubles its capacity, and throws if twice its capacity is more than its greatest size: with three values of the key type the third `insert` throws
although there is memory (C26 and C27 are about the same arithmetic). -/
theorem C100_every_key_violated :
    (runHist (cmapStep (Containers.vec (Nat × Nat) 0 3) 0 (exCfg (fun _ _ _ => none) 3 .keep)) (⟨fun _ => none, 0⟩, { ptr := none, cap := 0, size := 0 })
      [.insert 0 7 false fun _ => false, .insert 1 8 false fun _ => false, .insert 2 9 false fun _ => false]).map (fun r => (r.1.2.size, r.2)) =
    some (2, [false, false, true]) := by
  decide +kernel

/-- `insert` of a range of elements whose keys are all in the map throws if the map is full, though the map would not get more elements. -/
theorem C100_present_keys_violated :
    (runHist (cmapStep (Containers.vec (Nat × Nat) 0 2) 0 (exCfg (fun _ _ _ => none) 2 .keep)) (⟨fun _ => none, 0⟩, { ptr := none, cap := 0, size := 0 })
      [.insert 0 7 false fun _ => false, .insert 1 8 false fun _ => false, .insertRange [⟨(0, 5), false⟩] (0, 0) fun _ => false]).map (fun r => (r.1.2.size, r.2)) =
    some (2, [false, false, true]) := by
  decide +kernel

/-- `upsert` of three new keys into a map that has room for three: the third does not get in. -/
theorem C100_upsert_violated :
    (runHist (cmapStep (Containers.vec (Nat × Nat) 0 3) 0 (exCfg (fun _ _ _ => none) 3 .keep)) (⟨fun _ => none, 0⟩, { ptr := none, cap := 0, size := 0 })
      [.upsert [(0, 7), (1, 8), (2, 9)] (fun a _ => a) (0, 0)]).map (fun r => (r.1.2.size, r.2)) = none := by
  decide +kernel

/-! ## The hypotheses can be met -/

/-- A map of numbers on a vector, which gets elements in all the ways there are. -/
def exMap : Cfg Nat Nat := exCfg (refSort fun x y => decide (x.1 % 65536 < y.1 % 65536)) 100 .keep

/-- A history for an example: insertions of new and old keys, failing allocations and constructions, erasures. -/
def exOps : List (CMapOp Nat Nat) :=
  [.insert 5 1 false fun _ => false, .insert 3 2 false fun _ => false, .insert 5 9 false fun _ => false, .insert 4 9 false fun _ => true, .eraseIf (fun e => e.2 == 1) id,
    .insert 8 1 true fun _ => false]

example : (runHist (cmapStep (Containers.vec (Nat × Nat) 0 100) 0 exMap) (⟨fun _ => none, 0⟩, { ptr := none, cap := 0, size := 0 }) exOps).map
    (fun r => (lookupOn (Containers.vec (Nat × Nat) 0 100) exMap r.1.1 r.1.2 3, lookupOn (Containers.vec (Nat × Nat) 0 100) exMap r.1.1 r.1.2 5, r.2)) =
    some (some (some 2), some none, [false, false, false, true, false, true]) := by
  decide +kernel

/-- The hypotheses of `C100_history_partial` for that history. -/
example : exMap.Ok ∧ exMap.mv ≠ .clearSelf ∧ exMap.mx = (Containers.vec (Nat × Nat) 0 100).mx ∧
    (Containers.Vec.lawful (V := Nat × Nat) 0 100 (by omega)).Rep ⟨fun _ => none, 0⟩ { ptr := none, cap := 0, size := 0 } [] 0 ∧ Fresh (⟨fun _ => none, 0⟩ : Heap (Nat × Nat)) ∧
    exMap.Lists (· ∈ []) [] ∧ CMapSafe exMap (Containers.Vec.lawful (V := Nat × Nat) 0 100 (by omega)).cfg [] 0 exOps :=
  ⟨exCfg_ok exStd_sorts 100 .keep, by decide, rfl, ⟨⟨.inl ⟨rfl, rfl, rfl⟩, rfl, rfl⟩, Nat.le_refl 0⟩, fun _ _ => rfl, ⟨List.Pairwise.nil, fun _ => Iff.rfl⟩,
    by simp [CMapSafe, exOps, CMapOp.Pre]⟩

/-- The hypotheses of `C100_step_partial` for `upsert` into an empty map, which can grow to four elements. -/
example : (CMapOp.upsert [(5, 1), (3, 2)] (fun a _ => a) (0, 0)).Pre exMap (Containers.Vec.lawful (V := Nat × Nat) 0 100 (by omega)).cfg ([], 0) := by
  refine ⟨.inr ⟨rfl, fun j hj => ?_⟩, .inl (by decide), by simp [Cfg.Same, exMap, exCfg], by simp⟩
  have := le_twice 0 j
  have hj : twice^[j] 0 < 2 := hj
  rw [Function.iterate_succ_apply']
  show twice (twice^[j] 0) ≤ 100
  unfold twice at *
  omega

/-- The hypotheses of `C100_reserved` for keys that are truth values, in a `static_flat_map` for two elements. -/
example : ∃ C : Cfg Bool Nat, C.Ok ∧ C.mx = (Containers.stat (Bool × Nat) 2).mx ∧ (∀ k, ∃ k' ∈ [false, true], C.Same k' k) ∧ [false, true].length ≤ (Containers.stat (Bool × Nat) 2).mx ∧
    (Containers.Stat.lawful (V := Bool × Nat) 2).Rep ⟨fun _ => none, 0⟩ ⟨fun _ => none, 0⟩ [] (Containers.stat (Bool × Nat) 2).mx := by
  have ho : StrictWeak fun a b : Bool => !a && b := ⟨by decide, by decide⟩
  have ho2 : StrictWeak fun a b : Bool × Nat => !a.1 && b.1 := ⟨fun {a b} => ho.asymm (a := a.1) (b := b.1), fun {a b c} => ho.negTrans (a := a.1) (b := b.1) (c := c.1)⟩
  refine ⟨{ lt := fun a b => !a && b, eq := (· == ·), desc := .bool (·.1), std := refSort fun a b => !a.1 && b.1, merge := fun _ _ _ _ => none, mv := .clear, mx := 2 },
    ⟨ho, by decide, fun _ _ => ?_, ?_, ?_, ?_, refSort_sorts ho2⟩, rfl, fun k => ⟨k, by cases k <;> decide, by cases k <;> decide, by cases k <;> decide⟩, by decide, Containers.Stat.empty_rep _⟩
  · rename_i x y; rcases x with ⟨x, _⟩; rcases y with ⟨y, _⟩; cases x <;> cases y <;> rfl
  all_goals simp [Desc.WF, Desc.NonEmpty, Desc.Plain]

end Verif.Maps
