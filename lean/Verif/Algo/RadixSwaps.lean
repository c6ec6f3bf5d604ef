import Verif.Algo.NewSortSwaps
import Verif.Algo.RadixThrowsProps

/-!
# `ska_sort` when the key function or a swap throws (properties C87 and C92)

`ska_sort` as a program of reads, calls of the key function, swaps and calls of `std::sort`. Unlike in `RadixThrows.lean` there may be other objects around the
range, the key function may have a state, and swaps may throw.
-/

namespace Verif.Algo.Radix

open Verif Mem Swapping

variable {α τ R R' σ : Type}

/-! ## Model -/

/-- A program that reads elements, calls the key function, swaps elements and calls `std::sort`. The key is that of the description, or the call throws. -/
inductive RProg (α : Type) (R : Type) where
  | ret (r : R)
  | stuck
  | get (i : Nat) (k : α → RProg α R)
  | key (v : α) (k : RProg α R)
  | swap (i j : Nat) (k : RProg α R)
  | std (first n : Nat) (k : RProg α R)

namespace RProg

/-- Go on with what the first part returned. -/
protected def bind : RProg α R → (R → RProg α R') → RProg α R'
  | ret r, g => g r
  | stuck, _ => stuck
  | get i k, g => get i fun v => (k v).bind g
  | key v k, g => key v (k.bind g)
  | swap i j k, g => swap i j (k.bind g)
  | std first n k, g => std first n (k.bind g)

instance : Monad (RProg α) where
  pure := ret
  bind := RProg.bind

/-- Something that is done without elements. -/
def lift : Option R → RProg α R
  | some r => ret r
  | none => stuck

end RProg

/-- The elements from an address on. -/
def readAll (m : Mem α) (first : Nat) : Nat → Option (List α)
  | 0 => some []
  | n + 1 => do
    let v ← m first
    let vs ← readAll m (first + 1) n
    some (v :: vs)

/-- Elements put from an address on. -/
def place (first : Nat) (ys : List α) (m : Mem α) : Mem α := fun a => if first ≤ a ∧ a < first + ys.length then ys[a - first]? else m a

/-- How `std::sort` ends: with the elements and the state of the key function, or with an exception. -/
inductive Sorting (α τ : Type) where
  | sorted (ys : List α) (t : τ)
  | threw (ys : List α)

/-- A run. `f` is the key function with its state, `sw` are the swaps, `srt` is `std::sort`. An exception in `std::sort` ends in `heaped`. -/
def RProg.exec (f : τ → α → Option τ) (sw : Swaps α) (srt : τ → List α → Sorting α τ) : RProg α R → τ → Nat → Mem α → Way α τ R
  | .ret r, t, j, m => .ok r t j m
  | .stuck, _, _, _ => .ub
  | .get i k, t, j, m =>
    match m i with
    | none => .ub
    | some v => (k v).exec f sw srt t j m
  | .key v k, t, j, m =>
    match f t v with
    | none => .asked m
    | some t' => k.exec f sw srt t' j m
  | .swap a b k, t, j, m =>
    match swapX (sw j) m a b with
    | .ub => .ub
    | .exn m' => .swapped m'
    | .ok m' => k.exec f sw srt t (j + 1) m'
  | .std first n k, t, j, m =>
    match readAll m first n with
    | none => .ub
    | some xs =>
      match srt t xs with
      | .sorted ys t' => k.exec f sw srt t' j (place first ys m)
      | .threw ys => .heaped (place first ys m)

/-- `partition` with a predicate that calls the key function (`partition.cpp` 62-101). -/
def ofS (p : α → Bool) : SProg α α R → RProg α R
  | .ret r => .ret r
  | .stuck => .stuck
  | .get i k => .get i fun v => ofS p (k v)
  | .ask v k => .key v (ofS p (k (p v)))
  | .swap i j k => .swap i j (ofS p k)

/-- A read. -/
def getR (i : Nat) : RProg α α := .get i .ret

/-- A call of the key function. -/
def keyR (v : α) : RProg α Unit := .key v (.ret ())

/-- A swap. -/
def swapR (i j : Nat) : RProg α Unit := .swap i j (.ret ())

/-- A sort of the elements from an address on, see `Sorter`. -/
abbrev SorterR (α : Type) := Nat → Nat → RProg α Bool

/-- `NextSort` (`inplace_radix_sort.cpp` 66-67). -/
def runNextR (next : Option (SorterR α)) : SorterR α := fun first n =>
  match next with
  | none => pure false
  | some g => g first n

/-- A sort that is only run if there is more than one element (`inplace_radix_sort.cpp` 259-267, 303-311, 392-398, 399-406). -/
def sortManyR (g : SorterR α) : SorterR α := fun first n => if n > 1 then g first n else pure false

/-- The histogram (`inplace_radix_sort.cpp` 187-189). -/
def digitCountsR (dg : α → Nat) : Nat → Nat → (Nat → Nat) → RProg α (Nat → Nat)
  | 0, _, c => pure c
  | k + 1, it, c => do
    let v ← getR it
    keyR v
    digitCountsR dg k (it + 1) (upd c (dg v) (c (dg v) + 1))

/-- `partition_counts` (`inplace_radix_sort.cpp` 185-203). -/
def partitionCountsR (dg : α → Nat) (first n : Nat) : RProg α Parts := do
  let c ← digitCountsR dg n first fun _ => 0
  pure (partsLoop c 256 0 0 ⟨fun _ => 0, fun _ => 0, []⟩)

/-- The loop of `american_flag_sort` (`inplace_radix_sort.cpp` 229-253). -/
def flagLoopR (dg : α → Nat) (ps : Parts) (first n : Nat) : Nat → (Nat → Nat) → Nat → Nat → RProg α Bool
  | 0, _, _, _ => .stuck
  | f + 1, offset, ci, it => do
    let v ← getR it
    keyR v
    let cur ← RProg.lift ps.remaining[ci]?
    if dg v = cur then
      if it + 1 = first + n - 1 then pure false
      else if it + 1 = first + ps.next cur then do
        let r ← RProg.lift (nextBlock ps offset ps.remaining.length ci)
        match r with
        | none => pure true
        | some ci => do
          let c ← RProg.lift ps.remaining[ci]?
          flagLoopR dg ps first n f offset ci (first + offset c)
      else flagLoopR dg ps first n f offset ci (it + 1)
    else if offset (dg v) < n then do
      swapR it (first + offset (dg v))
      flagLoopR dg ps first n f (upd offset (dg v) (offset (dg v) + 1)) ci it
    else .stuck

/-- The loop that sorts the blocks (`inplace_radix_sort.cpp` 255-269). -/
def flagRecurseR (rec : SorterR α) (ps : Parts) (first : Nat) : List Nat → Nat → RProg α Bool
  | [], _ => pure false
  | d :: ds, start => do
    let e ← sortManyR rec start (first + ps.next d - start)
    let e' ← flagRecurseR rec ps first ds (first + ps.next d)
    pure (e || e')

/-- The part of `american_flag_sort` that moves the elements (`inplace_radix_sort.cpp` 225-254). -/
def flagMoveR (dg : α → Nat) (ps : Parts) : SorterR α := fun first n =>
  if ps.remaining.length > 1 then flagLoopR dg ps first n (n + 1) ps.offset 0 first else pure false

/-- `american_flag_sort` (`inplace_radix_sort.cpp` 217-270). -/
def americanFlagSortR (dg : α → Nat) (done : Bool) (rec : SorterR α) : SorterR α := fun first n => do
  let ps ← partitionCountsR dg first n
  let early ← flagMoveR dg ps first n
  if early then pure !done else flagRecurseR rec ps first ps.remaining first

/-- The loop over one block (`inplace_radix_sort.cpp` 284-293). -/
def skaBlockR (dg : α → Nat) (first n : Nat) : Nat → Nat → (Nat → Nat) → RProg α (Nat → Nat)
  | 0, _, st => pure st
  | k + 1, it, st => do
    let v ← getR it
    keyR v
    if st (dg v) < n then do
      if it ≠ first + st (dg v) then swapR it (first + st (dg v)) else pure ()
      skaBlockR dg first n k (it + 1) (upd st (dg v) (st (dg v) + 1))
    else .stuck

/-- The predicate given to `partition` (`inplace_radix_sort.cpp` 278-295). -/
def skaPredicateR (dg : α → Nat) (ps : Parts) (first n : Nat) (st : Nat → Nat) (index : Nat) : RProg α (Bool × (Nat → Nat)) :=
  if st index = ps.next index then pure (false, st)
  else do
    let st' ← skaBlockR dg first n (ps.next index - st index) (first + st index) st
    pure (true, st')

/-- `find_if_not` with a predicate that has a state. -/
def findNotR (p : σ → Nat → RProg α (Bool × σ)) (rem : List Nat) : Nat → Nat → σ → RProg α (Nat × σ)
  | 0, i, st => pure (i, st)
  | k + 1, i, st => do
    let x ← RProg.lift rem[i]?
    let r ← p st x
    if r.1 then findNotR p rem k (i + 1) r.2 else pure (i, r.2)

/-- `advance_last` (`partition.cpp` 71-78) with a predicate that has a state; `k` is `last - first`. -/
def advanceLastR (p : σ → Nat → RProg α (Bool × σ)) (rem : List Nat) (first : Nat) : Nat → σ → RProg α (Nat × σ)
  | 0, st => pure (first, st)
  | k + 1, st => do
    let x ← RProg.lift rem[first + k]?
    let r ← p st x
    if r.1 then pure (first + k, r.2) else advanceLastR p rem first k r.2

/-- The loop of `partition` (`partition.cpp` 81-88) with a predicate that has a state. -/
def partitionLoopR (p : σ → Nat → RProg α (Bool × σ)) : Nat → List Nat → Nat → Nat → σ → RProg α (List Nat × Nat × σ)
  | 0, _, _, _, _ => .stuck
  | f + 1, rem, first, last, st =>
    if first = last then pure (rem, first, st)
    else do
      let a ← RProg.lift rem[first]?
      let b ← RProg.lift rem[last]?
      let r ← findNotR p ((rem.set first b).set last a) (last - first) first st
      if r.1 = last then pure ((rem.set first b).set last a, r.1, r.2)
      else do
        let l ← advanceLastR p ((rem.set first b).set last a) r.1 (last - r.1) r.2
        partitionLoopR p f ((rem.set first b).set last a) r.1 l.1 l.2

/-- `partition` (`partition.cpp` 62-101) of the first `last` elements with a predicate that has a state. -/
def partitionR (p : σ → Nat → RProg α (Bool × σ)) (rem : List Nat) (last : Nat) (st : σ) : RProg α (List Nat × Nat × σ) := do
  let r ← findNotR p rem last 0 st
  let l ← advanceLastR p rem r.1 (last - r.1) r.2
  partitionLoopR p (l.1 - r.1 + 1) rem r.1 l.1 l.2

/-- The loop until at most one block remains (`inplace_radix_sort.cpp` 277-296). -/
def skaLoopR (p : σ → Nat → RProg α (Bool × σ)) : Nat → List Nat → Nat → σ → RProg α (List Nat × σ)
  | 0, _, _, _ => .stuck
  | f + 1, rem, last, st =>
    if last > 1 then do
      let r ← partitionR p rem last st
      skaLoopR p f r.1 r.2.1 r.2.2
    else pure (rem, st)

/-- The loop that sorts the blocks (`inplace_radix_sort.cpp` 297-312). -/
def skaRecurseR (rec : SorterR α) (ps : Parts) (first : Nat) : List Nat → RProg α Bool
  | [] => pure false
  | d :: ds => do
    let e ← sortManyR rec (first + if d = 0 then 0 else ps.next (d - 1)) (ps.next d - if d = 0 then 0 else ps.next (d - 1))
    let e' ← skaRecurseR rec ps first ds
    pure (e || e')

/-- `ska_byte_sort` (`inplace_radix_sort.cpp` 272-313). -/
def skaByteSortR (dg : α → Nat) (rec : SorterR α) : SorterR α := fun first n => do
  let ps ← partitionCountsR dg first n
  let r ← skaLoopR (skaPredicateR dg ps first n) (n + ps.remaining.length + 1) ps.remaining ps.remaining.length ps.offset
  skaRecurseR rec ps first r.1.reverse

/-- `containers::sort(to_sort, extract_key_to_less(extract_key))`. -/
def stdSortR : SorterR α := fun first n => .std first n (.ret false)

/-- `sort_selector` (`inplace_radix_sort.cpp` 205-216) with `r` bytes left. -/
def sortSelectorR (f : α → Nat) (next : Option (SorterR α)) : Nat → SorterR α
  | 0, first, n => runNextR next first n
  | r + 1, first, n =>
    if n ≤ 128 then stdSortR first n
    else if n < 1024 then americanFlagSortR (currentByte f r) (r == 0 && next.isNone) (sortSelectorR f next r) first n
    else skaByteSortR (currentByte f r) (sortSelectorR f next r) first n

/-- The loop of `common_prefix` (`common_prefix.cpp` 41-55). -/
def prefixScanR (len : α → Nat) (eq : Nat → α → α → Bool) (start : Nat) (x : α) : Nat → Nat → Nat → RProg α Nat
  | 0, _, largest => pure largest
  | k + 1, it, largest => do
    let y ← getR it
    keyR y
    if start ≤ len y then
      prefixScanR len eq start x k (it + 1) (min largest (matchLength (fun i => eq i x y) (min (len x) (len y) - start) start))
    else .stuck

/-- `common_prefix` (`common_prefix.cpp` 28-57). -/
def commonPrefixR (len : α → Nat) (eq : Nat → α → α → Bool) (start : Nat) (first n : Nat) : RProg α Nat :=
  match n with
  | 0 => pure 0
  | n + 1 => do
    let x ← getR first
    keyR x
    if start ≤ len x then prefixScanR len eq start x n (first + 1) (len x - start) else .stuck

/-- `ListInplaceSorter::sort` (`inplace_radix_sort.cpp` 373-407), see `listStep`. -/
def listStepR (len : α → Nat) (eq : Nat → α → α → Bool) (elemSort : Nat → Option (SorterR α) → SorterR α) (next : Option (SorterR α)) (rest : Nat → SorterR α)
    (idx : Nat) : SorterR α := fun first n => do
  let k ← commonPrefixR len eq idx first n
  let middle ← ofS (fun x => decide (len x ≤ idx + k)) (Swapping.partitionS true first (first + n))
  let e1 ← sortManyR (runNextR next) first (middle - first)
  let e2 ← sortManyR (elemSort (idx + k) (some (rest (idx + k + 1)))) middle (first + n - middle)
  pure (e1 || e2)

/-- `ListInplaceSorter` (`inplace_radix_sort.cpp` 341-420), see `listSort`. -/
def listSortR (len : α → Nat) (eq : Nat → α → α → Bool) (elemSort : Nat → Option (SorterR α) → SorterR α) (next : Option (SorterR α)) : Nat → Nat → SorterR α
  | 0 => listStepR len eq elemSort next fun _ => stdSortR
  | limit + 1 => listStepR len eq elemSort next (listSortR len eq elemSort next limit)

/-- `inplace_sort` (`inplace_radix_sort.cpp` 319-339) for one sub key, see `inplaceSort`. -/
def inplaceSortR : Desc α → Option (SorterR α) → SorterR α
  | .bool f, next, first, n => do
    let middle ← ofS (fun x => !f x) (Swapping.partitionS true first (first + n))
    let e1 ← runNextR next first (middle - first)
    let e2 ← runNextR next middle (first + n - middle)
    pure (e1 || e2)
  | .num bytes f, next, first, n => sortSelectorR f next bytes first n
  | .list _ len elem, next, first, n => listSortR len (fun i => (elem i).headEq) (fun i => inplaceSortR (elem i)) next 15 0 first n
  | .tuple _ comp, next, first, n => inplaceSortR (comp 0) next first n

/-- `sort_starter` (`inplace_radix_sort.cpp` 422-436). -/
def sortStarterR : List (Desc α) → Option (SorterR α)
  | [] => none
  | d :: ds => some fun first n => if n ≤ 1 then pure false else inplaceSortR d (sortStarterR ds) first n

/-- `ska_sort` (`ska_sort.cpp` 25-37, `inplace_radix_sort.cpp` 438-442). -/
def skaSortR (d : Desc α) : SorterR α := fun first n => runNextR (sortStarterR d.chain) first n

/-! ## Specification -/

/-- What is assumed of `std::sort`: it sorts, and what it returns depends on the elements only. If something throws in it, as many elements as before are alive. -/
def StdSort (lt : α → α → Bool) (sorted : List α → List α) (srt : τ → List α → Sorting α τ) : Prop :=
  (∀ xs, IsSort lt xs (sorted xs)) ∧ ∀ t xs,
    match srt t xs with
    | .sorted ys _ => ys = sorted xs
    | .threw ys => ys.length = xs.length

/-- `std::sort` in memory, as `skaSort` takes it. -/
def stdOf (sorted : List α → List α) (m : Mem α) (first n : Nat) : Option (Mem α) := (readAll m first n).map fun xs => place first (sorted xs) m

/-! ## Memory -/

theorem place_at {first : Nat} {ys : List α} {m : Mem α} {a : Nat} (h : a < ys.length) : place first ys m (first + a) = some ys[a] := by
  rw [place, if_pos (by omega), Nat.add_sub_cancel_left, List.getElem?_eq_getElem h]

theorem place_off {first : Nat} {ys : List α} {m : Mem α} {a : Nat} (h : ¬ InRange first ys.length a) : place first ys m a = m a := by
  rw [place, if_neg h]

theorem place_seg (first : Nat) (ys : List α) (m : Mem α) : (place first ys m).Seg first ys := fun i hi => place_at hi

/-- Only the elements. -/
def only (first : Nat) (ys : List α) : Mem α := place first ys fun _ => none

theorem only_some {first : Nat} {ys : List α} {i : Nat} {v : α} (h : only first ys i = some v) :
    ∃ a, ∃ ha : a < ys.length, i = first + a ∧ v = ys[a] := by
  by_cases hi : InRange first ys.length i
  · have h1 : first ≤ i ∧ i < first + ys.length := hi
    obtain ⟨a, rfl⟩ : ∃ a, i = first + a := ⟨i - first, by omega⟩
    have ha : a < ys.length := by omega
    rw [only, place_at ha] at h
    exact ⟨a, ha, rfl, by injection h with h; exact h.symm⟩
  · rw [only, place_off hi] at h
    cases h

theorem upd_place {first : Nat} {ys : List α} {m : Mem α} {a : Nat} (x : α) (h : a < ys.length) :
    upd (place first ys m) (first + a) (some x) = place first (ys.set a x) m := by
  funext c
  by_cases hc : c = first + a
  · subst hc
    rw [upd_same, place_at (by simpa using h)]
    simp
  · rw [upd_other _ _ hc]
    by_cases hi : InRange first ys.length c
    · have h1 : first ≤ c ∧ c < first + ys.length := hi
      obtain ⟨b, rfl⟩ : ∃ b, c = first + b := ⟨c - first, by omega⟩
      rw [place_at (by omega : b < ys.length), place_at (by simp; omega), List.getElem_set_ne (by omega)]
    · rw [place_off hi, place_off (by simpa using hi)]

theorem readAll_seg {m : Mem α} : ∀ {xs : List α} {first : Nat}, m.Seg first xs → readAll m first xs.length = some xs
  | [], _, _ => rfl
  | x :: xs, first, h => by
    rw [Mem.seg_cons] at h
    simp only [List.length_cons, readAll, h.1, readAll_seg h.2, Option.bind_eq_bind, Option.bind_some]

theorem readAll_some {m : Mem α} : ∀ {n first : Nat} {xs : List α}, readAll m first n = some xs → xs.length = n ∧ m.Seg first xs
  | 0, _, xs, h => by
    cases h
    exact ⟨rfl, Mem.seg_nil _ _⟩
  | n + 1, first, xs, h => by
    simp only [readAll, Option.bind_eq_bind, Option.bind_eq_some_iff] at h
    obtain ⟨v, hv, vs, hvs, e⟩ := h
    cases e
    obtain ⟨h1, h2⟩ := readAll_some hvs
    exact ⟨by simp [h1], Mem.seg_cons.2 ⟨hv, h2⟩⟩

/-- A part of the elements. -/
theorem part_of {first f n : Nat} {ys xs : List α} (h : readAll (only first ys) f n = some xs) (hn : xs ≠ []) :
    ∃ l r, ys = l ++ (xs ++ r) ∧ f = first + l.length := by
  obtain ⟨hl, hs⟩ := readAll_some h
  have hpos : 0 < xs.length := List.length_pos_iff.2 hn
  obtain ⟨a, ha, e1, -⟩ := only_some (hs 0 hpos)
  obtain ⟨b, hb, e2, -⟩ := only_some (hs (xs.length - 1) (by omega))
  refine ⟨ys.take a, (ys.drop a).drop xs.length, ?_, by simp; omega⟩
  have hx : xs = (ys.drop a).take xs.length := by
    apply List.ext_getElem
    · simp; omega
    · intro i h1 h2
      have := hs i h1
      obtain ⟨c, hc, e3, e4⟩ := only_some this
      rw [e4]
      simp only [List.getElem_take, List.getElem_drop]
      congr 1
      omega
  conv_rhs => rw [hx]
  rw [List.length_take, Nat.min_eq_left (by simp; omega), List.take_append_drop, List.take_append_drop]

theorem place_part {first : Nat} {l xs zs r : List α} {m : Mem α} (h : zs.length = xs.length) :
    place (first + l.length) zs (place first (l ++ (xs ++ r)) m) = place first (l ++ (zs ++ r)) m := by
  funext c
  simp only [place, List.length_append, h]
  by_cases hc : first ≤ c ∧ c < first + (l.length + (xs.length + r.length))
  · obtain ⟨a, rfl⟩ : ∃ a, c = first + a := ⟨c - first, by omega⟩
    rw [if_pos hc]
    rw [if_pos hc]
    simp only [Nat.add_sub_cancel_left]
    by_cases ha : a < l.length
    · rw [if_neg (by omega), List.getElem?_append_left ha, List.getElem?_append_left ha]
    · have e1 : ∀ ws : List α, (l ++ (ws ++ r))[a]? = (ws ++ r)[a - l.length]? := fun ws => List.getElem?_append_right (by omega)
      rw [e1, e1]
      by_cases hb : a < l.length + xs.length
      · rw [if_pos (by omega), List.getElem?_append_left (by omega)]
        congr 1
        omega
      · rw [if_neg (by omega), List.getElem?_append_right (by omega : xs.length ≤ a - l.length), List.getElem?_append_right (by omega : zs.length ≤ a - l.length), h]
  · rw [if_neg (by omega), if_neg hc, if_neg hc]

theorem place_nil (first : Nat) (m : Mem α) : place first [] m = m := by
  funext c
  rw [place, if_neg (by simp)]

theorem stdOf_sorts {lt : α → α → Bool} {sorted : List α → List α} (h : ∀ xs, IsSort lt xs (sorted xs)) : SortsBy lt (stdOf sorted) := by
  intro m first xs hx
  refine ⟨_, sorted xs, by rw [stdOf, readAll_seg hx]; rfl, place_seg first (sorted xs) m, h xs, fun e => (by cases e), fun a ha => ?_⟩
  exact place_off (by rw [(h xs).perm.length_eq]; exact ha)

/-! ## Without exceptions -/

/-- The run without exceptions. -/
def RProg.plain (sorted : List α → List α) : RProg α R → Mem α → Option (Mem α × R)
  | .ret r, m => some (m, r)
  | .stuck, _ => none
  | .get i k, m =>
    match m i with
    | none => none
    | some v => (k v).plain sorted m
  | .key _ k, m => k.plain sorted m
  | .swap a b k, m =>
    match m.swapAt a b with
    | none => none
    | some m' => k.plain sorted m'
  | .std first n k, m =>
    match stdOf sorted m first n with
    | none => none
    | some m' => k.plain sorted m'

section Run
variable {lt : α → α → Bool} {sorted : List α → List α} {srt : τ → List α → Sorting α τ} (hs : StdSort lt sorted srt) (f : τ → α → Option τ) (sw : Swaps α)
include hs

theorem exec_plain : ∀ (p : RProg α R) (t : τ) (j : Nat) (m : Mem α) {r t' j' m'}, p.exec f sw srt t j m = .ok r t' j' m' → p.plain sorted m = some (m', r)
  | .ret r, t, j, m, _, _, _, _, e => by cases e; rfl
  | .stuck, t, j, m, _, _, _, _, e => by cases e
  | .get i k, t, j, m, _, _, _, _, e => by
    simp only [RProg.exec, RProg.plain] at e ⊢
    cases hi : m i with
    | none => rw [hi] at e; cases e
    | some v => rw [hi] at e; exact exec_plain (k v) t j m e
  | .key v k, t, j, m, _, _, _, _, e => by
    simp only [RProg.exec, RProg.plain] at e ⊢
    cases hi : f t v with
    | none => rw [hi] at e; cases e
    | some t' => rw [hi] at e; exact exec_plain k t' j m e
  | .swap a b k, t, j, m, _, _, _, _, e => by
    simp only [RProg.exec, RProg.plain, swapX, Mem.swapAt] at e ⊢
    cases ha : m a with
    | none => simp [ha] at e
    | some x =>
      cases hb : m b with
      | none => simp [ha, hb] at e
      | some y =>
        simp only [ha, hb] at e ⊢
        cases hw : sw j with
        | none => rw [hw] at e; exact exec_plain k t (j + 1) _ e
        | some w => rw [hw] at e; cases e
  | .std first n k, t, j, m, _, _, _, _, e => by
    simp only [RProg.exec, RProg.plain, stdOf] at e ⊢
    cases hr : readAll m first n with
    | none => simp [hr] at e
    | some xs =>
      simp only [hr, Option.map_some] at e ⊢
      have := hs.2 t xs
      cases hq : srt t xs with
      | threw ys => rw [hq] at e; cases e
      | sorted ys t' =>
        rw [hq] at e this
        have this : ys = sorted xs := this
        subst this
        exact exec_plain k t' j _ e

/-- If the run without exceptions is fine where only the elements exist, then every run is fine with other objects around, and leaves those alone. -/
theorem exec_around (first : Nat) (M : Mem α) : ∀ (p : RProg α R) (t : τ) (j : Nat) (ys : List α), (p.plain sorted (only first ys)).isSome →
    match p.exec f sw srt t j (place first ys M) with
    | .ok _ _ _ m' => ∃ zs : List α, zs.Perm ys ∧ m' = place first zs M
    | .asked m' => ∃ zs : List α, zs.Perm ys ∧ m' = place first zs M
    | .swapped m' => ∃ (zs : List α) (k : Nat) (x' y' : α) (a b : Nat), zs.Perm ys ∧ sw k = some (x', y') ∧ a < zs.length ∧ b < zs.length ∧
        m' = place first ((zs.set a x').set b y') M
    | .heaped m' => ∃ (l v r v' : List α) (t : τ), (l ++ (v ++ r)).Perm ys ∧ srt t v = .threw v' ∧ m' = place first (l ++ (v' ++ r)) M
    | .ub => False
  | .ret r, t, j, ys, _ => ⟨ys, .refl _, rfl⟩
  | .stuck, t, j, ys, h => by cases h
  | .get i k, t, j, ys, h => by
    simp only [RProg.exec, RProg.plain] at h ⊢
    cases hi : only first ys i with
    | none => rw [hi] at h; cases h
    | some v =>
      rw [hi] at h
      obtain ⟨a, ha, rfl, rfl⟩ := only_some hi
      rw [place_at ha]
      exact exec_around first M (k _) t j ys h
  | .key v k, t, j, ys, h => by
    simp only [RProg.exec, RProg.plain] at h ⊢
    cases hi : f t v with
    | none => exact ⟨ys, .refl _, rfl⟩
    | some t' => exact exec_around first M k t' j ys h
  | .swap a b k, t, j, ys, h => by
    simp only [RProg.exec, RProg.plain, swapX, Mem.swapAt] at h ⊢
    cases ha : only first ys a with
    | none => simp [ha] at h
    | some x =>
      cases hb : only first ys b with
      | none => simp [ha, hb] at h
      | some y =>
        simp only [ha, hb] at h
        obtain ⟨a, la, rfl, rfl⟩ := only_some ha
        obtain ⟨b, lb, rfl, rfl⟩ := only_some hb
        simp only [place_at la, place_at lb]
        cases hw : sw j with
        | some w =>
          obtain ⟨x', y'⟩ := w
          dsimp only
          rw [upd_place _ la, upd_place _ (by simpa using lb)]
          exact ⟨ys, j, x', y', a, b, .refl _, hw, la, lb, rfl⟩
        | none =>
          dsimp only
          have hp : ((ys.set a ys[b]).set b ys[a]).Perm ys := by
            have := swapped_perm (xs := ys) (i := a) (j := b)
            rw [swapped, List.getElem?_eq_getElem la, List.getElem?_eq_getElem lb] at this
            exact this
          rw [upd_place _ la, upd_place _ (by simpa using lb)]
          rw [only, upd_place _ la, upd_place _ (by simpa using lb)] at h
          have := exec_around first M k t (j + 1) _ h
          revert this
          cases k.exec f sw srt t (j + 1) (place first ((ys.set a ys[b]).set b ys[a]) M) with
          | ok r t' j' m' => exact fun ⟨zs, p, e⟩ => ⟨zs, p.trans hp, e⟩
          | asked m' => exact fun ⟨zs, p, e⟩ => ⟨zs, p.trans hp, e⟩
          | swapped m' => exact fun ⟨zs, k, x', y', a, b, p, e⟩ => ⟨zs, k, x', y', a, b, p.trans hp, e⟩
          | heaped m' => exact fun ⟨l, v, r, v', t, p, e⟩ => ⟨l, v, r, v', t, p.trans hp, e⟩
          | ub => exact id
  | .std f' n k, t, j, ys, h => by
    simp only [RProg.exec, RProg.plain, stdOf] at h ⊢
    cases hr : readAll (only first ys) f' n with
    | none => simp [hr] at h
    | some xs =>
      simp only [hr, Option.map_some] at h
      obtain ⟨hl, hseg⟩ := readAll_some hr
      have hbig : readAll (place first ys M) f' n = some xs := by
        rw [← hl]
        refine readAll_seg fun i hi => ?_
        obtain ⟨a, ha, e1, e2⟩ := only_some (hseg i hi)
        rw [e1, place_at ha, e2]
      simp only [hbig]
      have hlen := (hs.1 xs).perm.length_eq
      have hst := hs.2 t xs
      -- what is written goes into the elements
      have key : ∀ zs : List α, zs.length = xs.length → ∃ l r, (l ++ (xs ++ r)).Perm ys ∧
          (∀ m, place f' zs (place first ys m) = place first (l ++ (zs ++ r)) m) := by
        intro zs hz
        by_cases hx : xs = []
        · subst hx
          have hz : zs = [] := List.length_eq_zero_iff.1 hz
          subst hz
          exact ⟨[], ys, by simp, fun m => by simp [place_nil]⟩
        · obtain ⟨l, r, e, rfl⟩ := part_of hr hx
          exact ⟨l, r, e ▸ .refl _, fun m => by rw [e, place_part hz]⟩
      cases hq : srt t xs with
      | threw zs =>
        rw [hq] at hst
        obtain ⟨l, r, p, e⟩ := key zs hst
        exact ⟨l, xs, r, zs, t, p, hq, e M⟩
      | sorted zs t' =>
        rw [hq] at hst
        have hst : zs = sorted xs := hst
        subst hst
        obtain ⟨l, r, p, e⟩ := key (sorted xs) hlen
        have hp : (l ++ (sorted xs ++ r)).Perm ys := ((((hs.1 xs).perm).append_right r).append_left l).trans p
        dsimp only
        rw [e M]
        rw [only, e] at h
        have := exec_around first M k t' j _ h
        revert this
        cases k.exec f sw srt t' j (place first (l ++ (sorted xs ++ r)) M) with
        | ok r t' j' m' => exact fun ⟨zs, p, e⟩ => ⟨zs, p.trans hp, e⟩
        | asked m' => exact fun ⟨zs, p, e⟩ => ⟨zs, p.trans hp, e⟩
        | swapped m' => exact fun ⟨zs, k, x', y', a, b, p, e⟩ => ⟨zs, k, x', y', a, b, p.trans hp, e⟩
        | heaped m' => exact fun ⟨l, v, r, v', t, p, e⟩ => ⟨l, v, r, v', t, p.trans hp, e⟩
        | ub => exact id

end Run

/-! ## The run without exceptions is that of the model of `SkaSort.lean` -/

section Equations
variable (sorted : List α → List α)

@[simp] theorem plain_pure (r : R) (m : Mem α) : (pure r : RProg α R).plain sorted m = some (m, r) := rfl

@[simp] theorem plain_stuck (m : Mem α) : (RProg.stuck : RProg α R).plain sorted m = none := rfl

@[simp] theorem plain_lift (x : Option R) (m : Mem α) : (RProg.lift x : RProg α R).plain sorted m = x.map fun r => (m, r) := by cases x <;> rfl

@[simp] theorem plain_get (i : Nat) (m : Mem α) : (getR i).plain sorted m = (m i).map fun v => (m, v) := by
  rw [getR, RProg.plain]
  cases m i <;> rfl

@[simp] theorem plain_key (v : α) (m : Mem α) : (keyR v).plain sorted m = some (m, ()) := rfl

@[simp] theorem plain_swap (i j : Nat) (m : Mem α) : (swapR i j).plain sorted m = (m.swapAt i j).map fun m => (m, ()) := by
  rw [swapR, RProg.plain]
  cases m.swapAt i j <;> rfl

@[simp] theorem plain_bind (g : R → RProg α R') : ∀ (p : RProg α R) (m : Mem α), (p >>= g).plain sorted m = (p.plain sorted m).bind fun r => (g r.2).plain sorted r.1
  | .ret r, m => rfl
  | .stuck, m => rfl
  | .get i k, m => by
    show (RProg.get i fun v => k v >>= g).plain sorted m = _
    simp only [RProg.plain]
    cases m i with
    | none => rfl
    | some v => exact plain_bind g (k v) m
  | .key v k, m => plain_bind g k m
  | .swap a b k, m => by
    show (RProg.swap a b (k >>= g)).plain sorted m = _
    simp only [RProg.plain]
    cases m.swapAt a b with
    | none => rfl
    | some m' => exact plain_bind g k m'
  | .std a b k, m => by
    show (RProg.std a b (k >>= g)).plain sorted m = _
    simp only [RProg.plain]
    cases stdOf sorted m a b with
    | none => rfl
    | some m' => exact plain_bind g k m'

theorem plain_ite {c : Prop} [Decidable c] (p q : RProg α R) (m : Mem α) : (if c then p else q).plain sorted m = if c then p.plain sorted m else q.plain sorted m := by
  split <;> rfl

theorem plain_ofS (p : α → Bool) : ∀ (s : SProg α α R) (m : Mem α), (ofS p s).plain sorted m = (s.toA m).run p
  | .ret r, m => rfl
  | .stuck, m => rfl
  | .get i k, m => by
    simp only [ofS, RProg.plain, SProg.toA]
    cases m i with
    | none => rfl
    | some v => exact plain_ofS p (k v) m
  | .ask v k, m => plain_ofS p (k (p v)) m
  | .swap a b k, m => by
    simp only [ofS, RProg.plain, SProg.toA]
    cases m.swapAt a b with
    | none => rfl
    | some m' => exact plain_ofS p k m'

theorem plain_partition (p : α → Bool) (first last : Nat) (m : Mem α) :
    (ofS p (Swapping.partitionS true first last)).plain sorted m = partition true m p first last := by
  rw [plain_ofS, Swapping.partitionS_toA, partitionA_run]

/-- The two sorts do the same. -/
def Same (gR : SorterR α) (g : Sorter α) : Prop := ∀ m first n, (gR first n).plain sorted m = g m first n

/-- The same for sorts that may be missing. -/
def SameNextR : Option (SorterR α) → Option (Sorter α) → Prop
  | none, none => True
  | some gR, some g => Same sorted gR g
  | _, _ => False

variable {sorted}

theorem runNextR_plain : ∀ {nR : Option (SorterR α)} {n : Option (Sorter α)}, SameNextR sorted nR n → Same sorted (runNextR nR) (runNext n)
  | none, none, _ => fun _ _ _ => rfl
  | some _, some _, h => h

theorem SameNextR.isNone : ∀ {nR : Option (SorterR α)} {n : Option (Sorter α)}, SameNextR sorted nR n → nR.isNone = n.isNone
  | none, none, _ => rfl
  | some _, some _, _ => rfl

theorem sortManyR_plain {gR : SorterR α} {g : Sorter α} (h : Same sorted gR g) : Same sorted (sortManyR gR) (sortMany g) := fun m first n => by
  simp only [sortManyR, sortMany, plain_ite, plain_pure, h m first n]

theorem digitCountsR_plain (dg : α → Nat) (m : Mem α) : ∀ k it c, (digitCountsR dg k it c).plain sorted m = (digitCounts dg m k it c).map fun c => (m, c)
  | 0, _, _ => rfl
  | k + 1, it, c => by
    simp only [digitCountsR, digitCounts, plain_bind, plain_get, plain_key]
    cases m it with
    | none => rfl
    | some v => exact digitCountsR_plain dg m k _ _

theorem partitionCountsR_plain (dg : α → Nat) (m : Mem α) (first n : Nat) :
    (partitionCountsR dg first n).plain sorted m = (partitionCounts dg m first n).map fun c => (m, c) := by
  simp only [partitionCountsR, partitionCounts, plain_bind, plain_pure, digitCountsR_plain]
  cases digitCounts dg m n first fun _ => 0 <;> rfl

theorem flagLoopR_plain (dg : α → Nat) (ps : Parts) (first n : Nat) : ∀ f m offset ci it,
    (flagLoopR dg ps first n f offset ci it).plain sorted m = flagLoop dg ps first n f m offset ci it
  | 0, _, _, _, _ => rfl
  | f + 1, m, offset, ci, it => by
    simp only [flagLoopR, flagLoop, plain_bind, plain_get, plain_key, plain_lift]
    cases m it with
    | none => rfl
    | some v =>
      cases ps.remaining[ci]? with
      | none => rfl
      | some cur =>
        simp only [Option.bind_some, Option.bind_eq_bind, Option.map_some, plain_ite, plain_pure, plain_stuck]
        split
        · split
          · rfl
          · split
            · simp only [plain_bind, plain_lift]
              cases nextBlock ps offset ps.remaining.length ci with
              | none => rfl
              | some r =>
                cases r with
                | none => rfl
                | some c =>
                  simp only [Option.bind_some, Option.map_some, plain_bind, plain_lift]
                  cases ps.remaining[c]? with
                  | none => rfl
                  | some d => exact flagLoopR_plain dg ps first n f _ _ _ _
            · exact flagLoopR_plain dg ps first n f _ _ _ _
        · split
          · simp only [plain_bind, plain_swap]
            cases m.swapAt it (first + offset (dg v)) with
            | none => rfl
            | some m' => exact flagLoopR_plain dg ps first n f _ _ _ _
          · rfl

theorem flagRecurseR_plain {rR : SorterR α} {r : Sorter α} (h : Same sorted rR r) (ps : Parts) (first : Nat) : ∀ ds start m,
    (flagRecurseR rR ps first ds start).plain sorted m = flagRecurse r ps first ds start m
  | [], _, _ => rfl
  | d :: ds, start, m => by
    simp only [flagRecurseR, flagRecurse, plain_bind, plain_pure, sortManyR_plain h _ _ _, flagRecurseR_plain h ps first ds]; rfl

theorem americanFlagSortR_plain (dg : α → Nat) (done : Bool) {rR : SorterR α} {r : Sorter α} (h : Same sorted rR r) :
    Same sorted (americanFlagSortR dg done rR) (americanFlagSort dg done r) := fun m first n => by
  simp only [americanFlagSortR, americanFlagSort, flagMoveR, flagMove, plain_bind, plain_pure, plain_ite, partitionCountsR_plain, flagLoopR_plain, flagRecurseR_plain h]
  cases partitionCounts dg m first n <;> rfl

theorem skaBlockR_plain (dg : α → Nat) (first n : Nat) : ∀ k it st m, (skaBlockR dg first n k it st).plain sorted m = skaBlock dg first n k it (m, st)
  | 0, _, _, _ => rfl
  | k + 1, it, st, m => by
    simp only [skaBlockR, skaBlock, plain_bind, plain_get, plain_key]
    cases m it with
    | none => rfl
    | some v =>
      simp only [Option.bind_some, Option.bind_eq_bind, Option.map_some, plain_ite, plain_bind, plain_stuck, plain_swap]
      split
      · split
        · cases m.swapAt it (first + st (dg v)) with
          | none => rfl
          | some m' => exact skaBlockR_plain dg first n k _ _ _
        · exact skaBlockR_plain dg first n k _ _ _
      · rfl

/-- A result with its state, and the elements in front. -/
def front (r : R × Mem α × σ) : Mem α × R × σ := (r.2.1, r.1, r.2.2)

theorem skaPredicateR_plain (dg : α → Nat) (ps : Parts) (first n : Nat) (st : Nat → Nat) (m : Mem α) (index : Nat) :
    (skaPredicateR dg ps first n st index).plain sorted m = (skaPredicate dg ps first n (m, st) index).map front := by
  simp only [skaPredicateR, skaPredicate, plain_bind, plain_pure, plain_ite, skaBlockR_plain]
  split
  · rfl
  · cases skaBlock dg first n (ps.next index - st index) (first + st index) (m, st) <;> rfl

section
variable {pR : σ → Nat → RProg α (Bool × σ)} {p : Mem α × σ → Nat → Option (Bool × Mem α × σ)} (h : ∀ st m x, (pR st x).plain sorted m = (p (m, st) x).map front)
include h

theorem findNotR_plain (rem : List Nat) : ∀ k i st m, (findNotR pR rem k i st).plain sorted m = (findNotS p rem k i (m, st)).map front
  | 0, _, _, _ => rfl
  | k + 1, i, st, m => by
    simp only [findNotR, findNotS, plain_bind, plain_lift, h]
    cases rem[i]? with
    | none => rfl
    | some x =>
      simp only [Option.bind_some, Option.map_some, Option.bind_eq_bind]
      cases p (m, st) x with
      | none => rfl
      | some r =>
        obtain ⟨b, m', st'⟩ := r
        cases b
        · rfl
        · exact findNotR_plain rem k _ _ _

theorem advanceLastR_plain (rem : List Nat) (first : Nat) : ∀ k st m, (advanceLastR pR rem first k st).plain sorted m = (advanceLastS p rem first k (m, st)).map front
  | 0, _, _ => rfl
  | k + 1, st, m => by
    simp only [advanceLastR, advanceLastS, plain_bind, plain_lift, h]
    cases rem[first + k]? with
    | none => rfl
    | some x =>
      simp only [Option.bind_some, Option.map_some, Option.bind_eq_bind]
      cases p (m, st) x with
      | none => rfl
      | some r =>
        obtain ⟨b, m', st'⟩ := r
        cases b
        · exact advanceLastR_plain rem first k _ _
        · rfl

/-- The same for two results. -/
def front2 (r : List Nat × R × Mem α × σ) : Mem α × List Nat × R × σ := (r.2.2.1, r.1, r.2.1, r.2.2.2)

theorem partitionLoopR_plain : ∀ f rem first last st m, (partitionLoopR pR f rem first last st).plain sorted m =
    (partitionLoopS p f rem first last (m, st)).map front2
  | 0, _, _, _, _, _ => rfl
  | f + 1, rem, first, last, st, m => by
    simp only [partitionLoopR, partitionLoopS, plain_ite, plain_bind, plain_lift, plain_pure]
    split
    · rfl
    · cases rem[first]? with
      | none => rfl
      | some a =>
        cases rem[last]? with
        | none => rfl
        | some b =>
          simp only [Option.bind_some, Option.map_some, Option.bind_eq_bind, findNotR_plain h, advanceLastR_plain h]
          cases findNotS p ((rem.set first b).set last a) (last - first) first (m, st) with
          | none => rfl
          | some r =>
            obtain ⟨i, m', st'⟩ := r
            simp only [Option.bind_some, Option.map_some, front]
            split
            · rfl
            · cases advanceLastS p ((rem.set first b).set last a) i (last - i) (m', st') with
              | none => rfl
              | some r => exact partitionLoopR_plain f _ _ _ _ _

theorem partitionR_plain (rem : List Nat) (last : Nat) (st : σ) (m : Mem α) : (partitionR pR rem last st).plain sorted m =
    (Verif.Algo.partitionS p rem last (m, st)).map front2 := by
  simp only [partitionR, Verif.Algo.partitionS, plain_bind, findNotR_plain h, advanceLastR_plain h, partitionLoopR_plain h]
  cases findNotS p rem last 0 (m, st) with
  | none => rfl
  | some r =>
    obtain ⟨i, m', st'⟩ := r
    simp only [Option.bind_some, Option.map_some, Option.bind_eq_bind, front]
    cases advanceLastS p rem i (last - i) (m', st') <;> rfl

theorem skaLoopR_plain : ∀ f rem last st m, (skaLoopR pR f rem last st).plain sorted m = (skaLoop p f rem last (m, st)).map front
  | 0, _, _, _, _ => rfl
  | f + 1, rem, last, st, m => by
    simp only [skaLoopR, skaLoop, plain_ite, plain_bind, plain_pure, partitionR_plain h]
    split
    · cases Verif.Algo.partitionS p rem last (m, st) with
      | none => rfl
      | some r => exact skaLoopR_plain f _ _ _ _
    · rfl

end

theorem skaRecurseR_plain {rR : SorterR α} {r : Sorter α} (h : Same sorted rR r) (ps : Parts) (first : Nat) : ∀ ds m,
    (skaRecurseR rR ps first ds).plain sorted m = skaRecurse r ps first ds m
  | [], _ => rfl
  | d :: ds, m => by
    simp only [skaRecurseR, skaRecurse, plain_bind, plain_pure, sortManyR_plain h _ _ _, skaRecurseR_plain h ps first ds]; rfl

theorem skaByteSortR_plain (dg : α → Nat) {rR : SorterR α} {r : Sorter α} (h : Same sorted rR r) : Same sorted (skaByteSortR dg rR) (skaByteSort dg r) := fun m first n => by
  simp only [skaByteSortR, skaByteSort, plain_bind, partitionCountsR_plain, skaRecurseR_plain h]
  cases partitionCounts dg m first n with
  | none => rfl
  | some ps =>
    simp only [Option.bind_some, Option.map_some, Option.bind_eq_bind, skaLoopR_plain (skaPredicateR_plain dg ps first n)]
    cases skaLoop (skaPredicate dg ps first n) (n + ps.remaining.length + 1) ps.remaining ps.remaining.length (m, ps.offset) <;> rfl

variable (sorted) in
/-- The thresholds of `ska_sort`. -/
def params : SkaParams α := ⟨128, 1024, stdOf sorted⟩

theorem stdSortR_plain : Same sorted (stdSortR (α := α)) (params sorted).stdSort := fun m first n => by
  simp only [stdSortR, SkaParams.stdSort, RProg.plain, params]
  cases stdOf sorted m first n <;> rfl

theorem sortSelectorR_plain (f : α → Nat) {nR : Option (SorterR α)} {n : Option (Sorter α)} (h : SameNextR sorted nR n) : ∀ r,
    Same sorted (sortSelectorR f nR r) (sortSelector (params sorted) f n r)
  | 0 => runNextR_plain h
  | r + 1 => fun m first k => by
    simp only [sortSelectorR, sortSelector, plain_ite, stdSortR_plain _ _ _, americanFlagSortR_plain _ _ (sortSelectorR_plain f h r) _ _ _,
      skaByteSortR_plain _ (sortSelectorR_plain f h r) _ _ _, h.isNone]
    rfl

theorem prefixScanR_plain (len : α → Nat) (eq : Nat → α → α → Bool) (start : Nat) (m : Mem α) (x : α) : ∀ k it l,
    (prefixScanR len eq start x k it l).plain sorted m = (prefixScan len eq start m x k it l).map fun c => (m, c)
  | 0, _, _ => rfl
  | k + 1, it, l => by
    simp only [prefixScanR, prefixScan, plain_bind, plain_get, plain_key]
    cases m it with
    | none => rfl
    | some y =>
      simp only [Option.bind_some, Option.map_some, Option.bind_eq_bind, plain_ite, plain_stuck, prefixScanR_plain len eq start m x k]
      split <;> rfl

theorem commonPrefixR_plain (len : α → Nat) (eq : Nat → α → α → Bool) (start : Nat) (m : Mem α) (first : Nat) : ∀ n,
    (commonPrefixR len eq start first n).plain sorted m = (commonPrefix len eq start m first n).map fun c => (m, c)
  | 0 => rfl
  | n + 1 => by
    simp only [commonPrefixR, commonPrefix, plain_bind, plain_get, plain_key]
    cases m first with
    | none => rfl
    | some y =>
      simp only [Option.bind_some, Option.map_some, Option.bind_eq_bind, plain_ite, plain_stuck, prefixScanR_plain]
      split <;> rfl

theorem listStepR_plain {len : α → Nat} {eq : Nat → α → α → Bool} {eR : Nat → Option (SorterR α) → SorterR α} {e : Nat → Option (Sorter α) → Sorter α}
    (he : ∀ i nR n, SameNextR sorted nR n → Same sorted (eR i nR) (e i n)) {nR : Option (SorterR α)} {n : Option (Sorter α)} (h : SameNextR sorted nR n)
    {rR : Nat → SorterR α} {r : Nat → Sorter α} (hr : ∀ i, Same sorted (rR i) (r i)) (idx : Nat) :
    Same sorted (listStepR len eq eR nR rR idx) (listStep len eq e n r idx) := fun m first k => by
  have h2 := fun i j => sortManyR_plain (he i (some (rR j)) (some (r j)) (hr j))
  simp only [listStepR, listStep, plain_bind, plain_pure, commonPrefixR_plain, plain_partition, sortManyR_plain (runNextR_plain h) _ _ _, h2 _ _ _ _ _]
  cases commonPrefix len eq idx m first k <;> rfl

theorem listSortR_plain {len : α → Nat} {eq : Nat → α → α → Bool} {eR : Nat → Option (SorterR α) → SorterR α}
    {e : Nat → Option (Sorter α) → Sorter α} (he : ∀ i nR n, SameNextR sorted nR n → Same sorted (eR i nR) (e i n)) {nR : Option (SorterR α)} {n : Option (Sorter α)}
    (h : SameNextR sorted nR n) : ∀ limit idx, Same sorted (listSortR len eq eR nR limit idx) (listSort (params sorted) len eq e n limit idx)
  | 0, idx => listStepR_plain he h (fun _ => stdSortR_plain) idx
  | limit + 1, idx => listStepR_plain he h (fun i => listSortR_plain he h limit i) idx

theorem inplaceSortR_plain : ∀ (d : Desc α) {nR : Option (SorterR α)} {n : Option (Sorter α)}, SameNextR sorted nR n →
    Same sorted (inplaceSortR d nR) (inplaceSort (params sorted) d n)
  | .bool f, nR, n, h => fun m first k => by
    simp only [inplaceSortR, inplaceSort, plain_bind, plain_pure, plain_partition, runNextR_plain h _ _ _]; rfl
  | .num bytes f, nR, n, h => sortSelectorR_plain f h bytes
  | .list _ len elem, nR, n, h => listSortR_plain (fun i _ _ h' => inplaceSortR_plain (elem i) h') h 15 0
  | .tuple _ comp, nR, n, h => inplaceSortR_plain (comp 0) h

theorem sortStarterR_plain : ∀ ds : List (Desc α), SameNextR sorted (sortStarterR ds) (sortStarter (params sorted) ds)
  | [] => trivial
  | d :: ds => fun m first n => by
    simp only [plain_ite, plain_pure, inplaceSortR_plain d (sortStarterR_plain ds) _ _ _]

theorem skaSortR_plain (d : Desc α) (m : Mem α) (first n : Nat) : (skaSortR d first n).plain sorted m = skaSort (stdOf sorted) d m first n :=
  runNextR_plain (sortStarterR_plain d.chain) m first n

end Equations

/-! ## The theorems -/

theorem place_self {first : Nat} {xs : List α} {m : Mem α} (h : m.Seg first xs) : place first xs m = m := by
  funext c
  by_cases hi : InRange first xs.length c
  · have h1 : first ≤ c ∧ c < first + xs.length := hi
    obtain ⟨a, rfl⟩ : ∃ a, c = first + a := ⟨c - first, by omega⟩
    rw [place_at (by omega), h a (by omega)]
  · exact place_off hi

theorem place_sameOff {first : Nat} {xs ys : List α} {m : Mem α} (h : ys.length = xs.length) : m.SameOff (place first ys m) (InRange first xs.length) :=
  fun _ ha => place_off (by rw [h]; exact ha)

theorem place_shuffled {first : Nat} {xs ys : List α} {m : Mem α} (hx : m.Seg first xs) (h : ys.Perm xs) : Shuffled first xs.length m (place first ys m) :=
  .of_seg hx rfl h (place_seg first ys m) (place_sameOff h.length_eq)

theorem skaSort_fine {d : Desc α} (hw : d.WF) (hn : d.NonEmpty) {sorted : List α → List α} (h : ∀ xs, IsSort d.less xs (sorted xs)) (first : Nat) (xs : List α) :
    ((skaSortR d first xs.length).plain sorted (only first xs)).isSome := by
  obtain ⟨m', ys, e, h1, -⟩ := C42_permutation hw hn (stdOf_sorts h) (place_seg first xs fun _ => none)
  rw [skaSortR_plain, only, h1]
  rfl

/-- **C92**, `ska_sort` of any range with other objects around it, by a key function with a state: wherever the key function, a swap or the sort of the standard
library throws, nothing undefined happens and nothing outside of the range changes. If the key function throws outside of the sort of the standard library, the
elements are in some order in the range; if a swap throws, they are in some order and two of them are what that swap has left; if the sort of the standard
library throws, all elements are alive. Otherwise the result is that of the model without exceptions. -/
theorem C92_ska_sort {d : Desc α} (hw : d.WF) (hn : d.NonEmpty) {sorted : List α → List α} {srt : τ → List α → Sorting α τ} (hs : StdSort d.less sorted srt)
    (f : τ → α → Option τ) (sw : Swaps α) (t : τ) {first : Nat} {xs : List α} {m : Mem α} (hx : m.Seg first xs) :
    match (skaSortR d first xs.length).exec f sw srt t 0 m with
    | .ok e _ _ m' => Shuffled first xs.length m m' ∧ skaSort (stdOf sorted) d m first xs.length = some (m', e)
    | .asked m' => Shuffled first xs.length m m'
    | .swapped m' => Disturbed sw first xs m m'
    | .heaped m' => Alive first xs m m'
    | .ub => False := by
  have h1 := exec_around hs f sw first m (skaSortR d first xs.length) t 0 xs (skaSort_fine hw hn hs.1 first xs)
  rw [place_self hx] at h1
  cases e : (skaSortR d first xs.length).exec f sw srt t 0 m with
  | ub => rw [e] at h1; exact h1
  | ok r t' j' m' =>
    rw [e] at h1
    obtain ⟨zs, p, rfl⟩ := h1
    exact ⟨place_shuffled hx p, by rw [← skaSortR_plain]; exact exec_plain hs f sw _ _ _ _ e⟩
  | asked m' =>
    rw [e] at h1
    obtain ⟨zs, p, rfl⟩ := h1
    exact place_shuffled hx p
  | swapped m' =>
    rw [e] at h1
    obtain ⟨zs, k, x', y', a, b, p, hk, ha, hb, rfl⟩ := h1
    exact ⟨k, x', y', zs, a, b, hk, p, p.length_eq ▸ ha, p.length_eq ▸ hb, place_seg _ _ _, place_sameOff (by simpa using p.length_eq)⟩
  | heaped m' =>
    rw [e] at h1
    obtain ⟨l, v, r, v', t, p, ht, rfl⟩ := h1
    have hl : v'.length = v.length := by have := hs.2 t v; rw [ht] at this; exact this
    have hl : (l ++ (v' ++ r)).length = xs.length := by rw [← p.length_eq]; simp [hl]
    exact ⟨_, hl, place_seg _ _ _, place_sameOff hl⟩

/-- **C87**, `ska_sort` of any range with other objects around it, by a key function with a state that may throw at any call, with swaps that do not throw: whatever
the key function does, nothing undefined happens, nothing outside of the range changes, and the elements are in some order in the range. It is assumed that the
sort of the standard library leaves the elements in some order when the key function throws in it. -/
theorem C87_ska_sort {d : Desc α} (hw : d.WF) (hn : d.NonEmpty) {sorted : List α → List α} {srt : τ → List α → Sorting α τ} (hs : StdSort d.less sorted srt)
    (hp : ∀ t xs ys, srt t xs = .threw ys → ys.Perm xs) (f : τ → α → Option τ) (t : τ) {first : Nat} {xs : List α} {m : Mem α} (hx : m.Seg first xs) :
    match (skaSortR d first xs.length).exec f (fun _ => none) srt t 0 m with
    | .ok e _ _ m' => Shuffled first xs.length m m' ∧ skaSort (stdOf sorted) d m first xs.length = some (m', e)
    | .asked m' => Shuffled first xs.length m m'
    | .swapped _ => False
    | .heaped m' => Shuffled first xs.length m m'
    | .ub => False := by
  have h0 := C92_ska_sort hw hn hs f (fun _ => none) t hx
  have h1 := exec_around hs f (fun _ => none) first m (skaSortR d first xs.length) t 0 xs (skaSort_fine hw hn hs.1 first xs)
  rw [place_self hx] at h1
  cases e : (skaSortR d first xs.length).exec f (fun _ => none) srt t 0 m with
  | ub => rw [e] at h1; exact h1
  | ok r t' j' m' => rw [e] at h0; exact h0
  | asked m' => rw [e] at h0; exact h0
  | swapped m' =>
    rw [e] at h1
    obtain ⟨zs, k, x', y', a, b, p, hk, -⟩ := h1
    cases hk
  | heaped m' =>
    rw [e] at h1
    obtain ⟨l, v, r, v', t, p, ht, rfl⟩ := h1
    exact place_shuffled hx ((((hp t v v' ht).append_right r).append_left l).trans p)

/-! ## Examples -/

/-- An element put into its place. -/
def put (lt : α → α → Bool) (x : α) : List α → List α
  | [] => [x]
  | y :: ys => if lt y x then y :: put lt x ys else x :: y :: ys

theorem put_perm (lt : α → α → Bool) (x : α) : ∀ ys, (put lt x ys).Perm (x :: ys)
  | [] => .refl _
  | y :: ys => by
    unfold put
    split
    · exact ((put_perm lt x ys).cons y).trans (.swap x y ys)
    · exact .refl _

theorem put_sorted {lt : α → α → Bool} (h : StrictWeak lt) (x : α) : ∀ ys, Sorted lt ys → Sorted lt (put lt x ys)
  | [], _ => List.pairwise_singleton _ _
  | y :: ys, hy => by
    obtain ⟨h1, h2⟩ := List.pairwise_cons.1 hy
    unfold put
    split
    · rename_i hl
      refine List.pairwise_cons.2 ⟨fun z hz => ?_, put_sorted h x ys h2⟩
      rcases List.mem_cons.1 ((put_perm lt x ys).mem_iff.1 hz) with rfl | hz
      · exact h.asymm hl
      · exact h1 z hz
    · rename_i hl
      have hl : lt y x = false := by simpa using hl
      refine List.pairwise_cons.2 ⟨fun z hz => ?_, hy⟩
      rcases List.mem_cons.1 hz with rfl | hz
      · exact hl
      · exact h.negTrans hl (h1 z hz)

/-- A sort. -/
def sortedBy (lt : α → α → Bool) (xs : List α) : List α := xs.foldr (put lt) []

theorem sortedBy_isSort {lt : α → α → Bool} (h : StrictWeak lt) : ∀ xs, IsSort lt xs (sortedBy lt xs)
  | [] => ⟨List.Pairwise.nil, .refl _⟩
  | x :: xs => ⟨put_sorted h x _ (sortedBy_isSort h xs).sorted, (put_perm lt x _).trans ((sortedBy_isSort h xs).perm.cons x)⟩

/-- A sort of the standard library whose comparison calls the key function; the key function throws when it has been called twenty times. -/
def twentySort (lt : α → α → Bool) (t : Nat) (xs : List α) : Sorting α Nat := if t + xs.length ≤ 20 then .sorted (sortedBy lt xs) (t + xs.length) else .threw xs.reverse

/-- The hypotheses of both theorems are met for every key. -/
example (d : Desc α) : StdSort d.less (sortedBy d.less) (twentySort d.less) ∧ ∀ t xs ys, twentySort d.less t xs = .threw ys → ys.Perm xs := by
  refine ⟨⟨sortedBy_isSort d.less_strictWeak, fun t xs => ?_⟩, fun t xs ys h => ?_⟩
  · unfold twentySort
    split
    · rename_i h
      split at h
      · cases h
        rfl
      · cases h
    · rename_i h
      split at h
      · cases h
      · cases h
        simp
  · unfold twentySort at h
    split at h
    · cases h
    · cases h
      exact List.reverse_perm xs

/-- A key function that throws when it has been called `k` times. -/
def calls (k t : Nat) (_ : Nat) : Option Nat := if t < k then some (t + 1) else none

/-- Pairs of a boolean and a byte: whether a number is odd, then the number. -/
def oddThenValue : Desc Nat := .tuple 2 fun i => if i = 0 then .bool fun x => x % 2 == 1 else .num 1 fun x => x % 256

/-- Other objects around six numbers at the addresses 1 to 6. -/
def sixAround : Mem Nat := fun x => [99, 5, 4, 3, 8, 1, 2, 98][x]?

/-- How a run ends. -/
def ends (w : Way Nat Nat Bool) : Nat × List (Option Nat) :=
  match w with
  | .ok _ _ _ m => (0, (List.range 8).map m)
  | .asked m => (1, (List.range 8).map m)
  | .swapped m => (2, (List.range 8).map m)
  | .heaped m => (3, (List.range 8).map m)
  | .ub => (4, [])

example : oddThenValue.WF ∧ oddThenValue.NonEmpty ∧ sixAround.Seg 1 [5, 4, 3, 8, 1, 2] := by
  refine ⟨fun i => ?_, ⟨by decide, fun i => ?_⟩, fun i hi => ?_⟩
  · dsimp only
    split
    · trivial
    · exact ⟨.inl rfl, fun x => Nat.mod_lt _ (by decide)⟩
  · dsimp only
    split <;> trivial
  · simp only [List.length_cons, List.length_nil] at hi
    interval_cases i <;> rfl

/-- No exception. -/
example : ends ((skaSortR oddThenValue 1 6).exec (calls 100) (fun _ => none) (twentySort oddThenValue.less) 0 0 sixAround) =
    (0, [99, 2, 4, 8, 1, 3, 5, 98].map some) := by decide +kernel

/-- The key function throws. -/
example : ends ((skaSortR oddThenValue 1 6).exec (calls 3) (fun _ => none) (twentySort oddThenValue.less) 0 0 sixAround) =
    (1, [99, 2, 4, 3, 8, 1, 5, 98].map some) := by decide +kernel

/-- A swap throws and leaves 7 in both of its objects. -/
example : ends ((skaSortR oddThenValue 1 6).exec (calls 100) (fun i => if i = 1 then some (7, 7) else none) (twentySort oddThenValue.less) 0 0 sixAround) =
    (2, [99, 2, 4, 7, 7, 1, 5, 98].map some) := by decide +kernel

/-- The key function throws in the sort of the standard library. -/
example : ends ((skaSortR oddThenValue 1 6).exec (calls 100) (fun _ => none) (twentySort oddThenValue.less) 10 0 sixAround) =
    (3, [99, 8, 4, 2, 3, 1, 5, 98].map some) := by decide +kernel

end Verif.Algo.Radix
