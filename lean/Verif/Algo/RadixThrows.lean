import Verif.Algo.DoubleBuffered
import Verif.Algo.SkaProps
import Verif.Algo.ThrowsProps

/-!
# Radix sorts whose key function throws (C87): the model

The radix sorts call the function that extracts a key again and again while they move elements. Here a sort also gives what is in memory at
each of these calls: that is what is left behind if that call throws. The keys themselves are those of `Desc`: a call either throws or answers as
the description says. Taking a part of a key (an element of a range, a member of a tuple) belongs to the call.
-/

namespace Verif.Algo

/-- What a sort does if no call throws, and what is in memory at each call, in order. A call that throws leaves that memory behind. -/
def Traced (S R : Type) := List S × Option R

namespace Traced

variable {S R R' : Type}

/-- Go on unless something has gone wrong. -/
protected def bind (t : Traced S R) (g : R → Traced S R') : Traced S R' :=
  match t.2 with
  | none => (t.1, none)
  | some r => (t.1 ++ (g r).1, (g r).2)

instance : Monad (Traced S) where
  pure r := ([], some r)
  bind := Traced.bind

/-- Something that does not call the key function. -/
def lift (x : Option R) : Traced S R := ([], x)

/-- A call of the key function while `s` is in memory. -/
def call (s : S) : Traced S Unit := ([s], some ())

/-- What happens if the call number `k` (from 0 on) is the one that throws: the memory left behind. -/
def thrown (t : Traced S R) (k : Nat) : Option S := t.1[k]?

@[simp] theorem pure_snd (r : R) : (pure r : Traced S R).2 = some r := rfl
@[simp] theorem lift_snd (x : Option R) : (lift x : Traced S R).2 = x := rfl
@[simp] theorem call_snd (s : S) : (call s).2 = some () := rfl

@[simp] theorem bind_snd (t : Traced S R) (g : R → Traced S R') : (t >>= g).2 = t.2.bind fun r => (g r).2 := by
  show (Traced.bind t g).2 = _
  rw [Traced.bind]
  cases t.2 <;> rfl

/-- `P` holds of the memory at every call, and `Q` of the result, if there is one. -/
def Good (P : S → Prop) (Q : R → Prop) (t : Traced S R) : Prop := (∀ s ∈ t.1, P s) ∧ ∀ r, t.2 = some r → Q r

variable {P : S → Prop} {Q : R → Prop}

theorem Good.pure {r : R} (h : Q r) : Good P Q (Pure.pure r : Traced S R) := ⟨by rintro s ⟨⟩, fun r' e => by injection e with e; exact e ▸ h⟩

theorem Good.lift {x : Option R} (h : ∀ r, x = some r → Q r) : Good P Q (Traced.lift x) := ⟨by rintro s ⟨⟩, h⟩

theorem Good.call {s : S} {Q : Unit → Prop} (h : P s) (hq : Q ()) : Good P Q (Traced.call s) :=
  ⟨fun s' hs => by rw [List.mem_singleton.1 hs]; exact h, fun _ _ => hq⟩

theorem Good.bind {t : Traced S R} {g : R → Traced S R'} {Q' : R' → Prop} (h : Good P Q t) (hg : ∀ r, Q r → Good P Q' (g r)) : Good P Q' (t >>= g) := by
  show Good P Q' (Traced.bind t g)
  rw [Traced.bind]
  cases e : t.2 with
  | none => exact ⟨h.1, by rintro _ ⟨⟩⟩
  | some r =>
    have := hg r (h.2 r e)
    exact ⟨fun s hs => (List.mem_append.1 hs).elim (h.1 s) (this.1 s), this.2⟩

theorem Good.mono {t : Traced S R} {P' : S → Prop} {Q' : R → Prop} (h : Good P Q t) (hp : ∀ s, P s → P' s) (hq : ∀ r, Q r → Q' r) : Good P' Q' t :=
  ⟨fun s hs => hp s (h.1 s hs), fun r hr => hq r (h.2 r hr)⟩

end Traced

open Traced

/-- A tree of calls, run with a function. -/
def Ask.traced {S Q R : Type} (f : Q → Bool) : Ask S Q (Option R) → Traced S R
  | .done r => ([], r)
  | .ask s q k => (s :: ((k (f q)).traced f).1, ((k (f q)).traced f).2)

theorem Ask.traced_snd {S Q R : Type} (f : Q → Bool) : ∀ a : Ask S Q (Option R), (a.traced f).2 = a.run f
  | .done _ => rfl
  | .ask _ q k => Ask.traced_snd f (k (f q))

variable {α : Type}

/-! ## `double_buffered_ska_sort` -/

/-- The memory of source and buffer. -/
abbrev Both (α : Type) := Mem α × Mem α

/-- The other range is called the source. -/
def Traced.flip {R : Type} (t : Traced (Both α) R) : Traced (Both α) R := (t.1.map Prod.swap, t.2)

/-- `containers::count_if` over the source, with the source and the buffer in memory. -/
def countLoopT (p : α → Bool) (s b : Mem α) : Nat → Nat → Nat → Traced (Both α) Nat
  | 0, _, c => pure c
  | k + 1, i, c => do
    let v ← lift (s i)
    call (s, b)
    countLoopT p s b k (i + 1) (if p v then c + 1 else c)

/-- The loop of `bool_sort_copy` (`double_buffered_ska_sort.cpp` 92-96). -/
def boolLoopT (f : α → Bool) (n : Nat) : Nat → Nat → Nat → Nat → Mem α → Mem α → Traced (Both α) (Mem α × Mem α)
  | 0, _, _, _, cur, nxt => pure (cur, nxt)
  | k + 1, i, fp, tp, cur, nxt => do
    let v ← lift (cur i)
    call (cur, nxt)
    let position := if f v then tp else fp
    if position < n then
      boolLoopT f n k (i + 1) (if f v then fp else fp + 1) (if f v then tp + 1 else tp) (upd cur i none) (upd nxt position (some v))
    else lift none

/-- `bool_sort_copy` (`double_buffered_ska_sort.cpp` 82-97). -/
def boolSortCopyT (f : α → Bool) (n : Nat) (source buffer : Mem α) : Traced (Both α) (Mem α × Mem α) := do
  let c ← countLoopT (fun x => !f x) source buffer n 0 0
  boolLoopT f n n 0 0 c source buffer

/-- The histogram of every byte (`double_buffered_ska_sort.cpp` 103-112). -/
def histogramT (f : α → Nat) (bytes : Nat) (s b : Mem α) : Nat → Nat → (Nat → Nat → Nat) → Traced (Both α) (Nat → Nat → Nat)
  | 0, _, c => pure c
  | k + 1, i, c => do
    let v ← lift (s i)
    call (s, b)
    histogramT f bytes s b k (i + 1) fun index d => if index < bytes ∧ d = digit f index v then c index d + 1 else c index d

/-- `sort_segment_copy` (`double_buffered_ska_sort.cpp` 122-128) with the positions of its byte. -/
def scatterLoopT (dg : α → Nat) (n : Nat) : Nat → Nat → (Nat → Nat) → Mem α → Mem α → Traced (Both α) (Mem α × Mem α)
  | 0, _, _, cur, nxt => pure (cur, nxt)
  | k + 1, i, c, cur, nxt => do
    let v ← lift (cur i)
    call (cur, nxt)
    if c (dg v) < n then scatterLoopT dg n k (i + 1) (upd c (dg v) (c (dg v) + 1)) (upd cur i none) (upd nxt (c (dg v)) (some v))
    else lift none

/-- The loop over the bytes (`double_buffered_ska_sort.cpp` 121-133). -/
def numericLoopT (f : α → Nat) (even : Bool) (n : Nat) (counts : Nat → Nat → Nat) : Nat → Nat → Mem α → Mem α → Traced (Both α) (Mem α × Mem α)
  | 0, _, s, b => pure (s, b)
  | 1, index, s, b => do
    let r ← scatterLoopT (digit f index) n n 0 (counts index) s b
    if even then lift none else pure r
  | r + 2, index, s, b => do
    let sb ← scatterLoopT (digit f index) n n 0 (counts index) s b
    if even then do
      let bs ← (scatterLoopT (digit f (index + 1)) n n 0 (counts (index + 1)) sb.2 sb.1).flip
      numericLoopT f even n counts r (index + 2) bs.2 bs.1
    else numericLoopT f even n counts (r + 1) (index + 1) sb.1 sb.2

/-- `double_buffered_numeric_sort` (`double_buffered_ska_sort.cpp` 100-135). -/
def numericSortT (bytes : Nat) (f : α → Nat) (n : Nat) (s b : Mem α) : Traced (Both α) (Mem α × Mem α × Bool) := do
  let c ← histogramT f bytes s b n 0 fun _ _ => 0
  let sb ← numericLoopT f (bytes % 2 == 0) n (fun index => if index < bytes then prefixLoop 256 0 0 (c index) else c index) bytes 0 s b
  pure (sb.1, sb.2, bytes % 2 == 1)

/-- The loop over the components (`double_buffered_ska_sort.cpp` 160-171, 183-197). -/
def componentLoopT (g : Nat → Mem α → Mem α → Traced (Both α) (Mem α × Mem α × Bool)) : Nat → Mem α → Mem α → Bool → Traced (Both α) (Mem α × Mem α × Bool)
  | 0, s, b, which => pure (s, b, which)
  | k + 1, s, b, which =>
    if which then do
      let r ← (g k b s).flip
      componentLoopT g k r.2.1 r.1 (!r.2.2)
    else do
      let r ← g k s b
      componentLoopT g k r.1 r.2.1 r.2.2

/-- `double_buffered_sort_impl` (`double_buffered_ska_sort.cpp` 200-213). -/
def doubleBufferedImplT (n : Nat) : Desc α → Mem α → Mem α → Traced (Both α) (Mem α × Mem α × Bool)
  | .bool f, s, b => do
    let r ← boolSortCopyT f n s b
    pure (r.1, r.2, true)
  | .num bytes f, s, b => numericSortT bytes f n s b
  | .list none _ _, _, _ => lift none
  | .list (some k) _ elem, s, b => componentLoopT (fun i => doubleBufferedImplT n (elem i)) k s b false
  | .tuple k comp, s, b => componentLoopT (fun i => doubleBufferedImplT n (comp i)) k s b false

/-- `double_buffered_ska_sort` (`double_buffered_ska_sort.cpp` 215-229). `tiny`: the size type of the source holds at most 1. -/
def doubleBufferedSortT (tiny : Bool) (d : Desc α) (n nb : Nat) (s b : Mem α) : Traced (Both α) (Mem α × Mem α × Bool) :=
  if tiny then pure (s, b, false)
  else if n = nb then doubleBufferedImplT n d s b
  else lift none

/-! ## `ska_sort` -/

/-- A sort of the elements from an address on, see `Sorter`. -/
abbrev SorterT (α : Type) := Mem α → Nat → Nat → Traced (Mem α) (Mem α × Bool)

/-- `NextSort` (`inplace_radix_sort.cpp` 66-67). -/
def runNextT (next : Option (SorterT α)) : SorterT α := fun m first n =>
  match next with
  | none => pure (m, false)
  | some g => g m first n

/-- A sort that is only run if there is more than one element (`inplace_radix_sort.cpp` 259-267, 303-311, 392-398, 399-406). -/
def sortManyT (g : SorterT α) : SorterT α := fun m first n => if n > 1 then g m first n else pure (m, false)

/-- The histogram (`inplace_radix_sort.cpp` 187-189). -/
def digitCountsT (dg : α → Nat) (m : Mem α) : Nat → Nat → (Nat → Nat) → Traced (Mem α) (Nat → Nat)
  | 0, _, c => pure c
  | k + 1, it, c => do
    let v ← lift (m it)
    call m
    digitCountsT dg m k (it + 1) (upd c (dg v) (c (dg v) + 1))

/-- `partition_counts` (`inplace_radix_sort.cpp` 185-203). -/
def partitionCountsT (dg : α → Nat) (m : Mem α) (first n : Nat) : Traced (Mem α) Parts := do
  let c ← digitCountsT dg m n first fun _ => 0
  pure (partsLoop c 256 0 0 ⟨fun _ => 0, fun _ => 0, []⟩)

/-- The loop of `american_flag_sort` (`inplace_radix_sort.cpp` 229-253). -/
def flagLoopT (dg : α → Nat) (ps : Parts) (first n : Nat) : Nat → Mem α → (Nat → Nat) → Nat → Nat → Traced (Mem α) (Mem α × Bool)
  | 0, _, _, _, _ => lift none
  | f + 1, m, offset, ci, it => do
    let v ← lift (m it)
    call m
    let cur ← lift ps.remaining[ci]?
    if dg v = cur then
      if it + 1 = first + n - 1 then pure (m, false)
      else if it + 1 = first + ps.next cur then do
        let r ← lift (nextBlock ps offset ps.remaining.length ci)
        match r with
        | none => pure (m, true)
        | some ci => do
          let c ← lift ps.remaining[ci]?
          flagLoopT dg ps first n f m offset ci (first + offset c)
      else flagLoopT dg ps first n f m offset ci (it + 1)
    else if offset (dg v) < n then do
      let m ← lift (m.swapAt it (first + offset (dg v)))
      flagLoopT dg ps first n f m (upd offset (dg v) (offset (dg v) + 1)) ci it
    else lift none

/-- The loop that sorts the blocks (`inplace_radix_sort.cpp` 255-269). -/
def flagRecurseT (rec : SorterT α) (ps : Parts) (first : Nat) : List Nat → Nat → Mem α → Traced (Mem α) (Mem α × Bool)
  | [], _, m => pure (m, false)
  | d :: ds, start, m => do
    let r ← sortManyT rec m start (first + ps.next d - start)
    let r' ← flagRecurseT rec ps first ds (first + ps.next d) r.1
    pure (r'.1, r.2 || r'.2)

/-- The part of `american_flag_sort` that moves the elements (`inplace_radix_sort.cpp` 225-254). -/
def flagMoveT (dg : α → Nat) (ps : Parts) : SorterT α := fun m first n =>
  if ps.remaining.length > 1 then flagLoopT dg ps first n (n + 1) m ps.offset 0 first else pure (m, false)

/-- `american_flag_sort` (`inplace_radix_sort.cpp` 217-270). -/
def americanFlagSortT (dg : α → Nat) (done : Bool) (rec : SorterT α) : SorterT α := fun m first n => do
  let ps ← partitionCountsT dg m first n
  let r ← flagMoveT dg ps m first n
  if r.2 then pure (r.1, !done) else flagRecurseT rec ps first ps.remaining first r.1

/-- The loop over one block (`inplace_radix_sort.cpp` 284-293). -/
def skaBlockT (dg : α → Nat) (first n : Nat) : Nat → Nat → SkaState α → Traced (Mem α) (SkaState α)
  | 0, _, st => pure st
  | k + 1, it, st => do
    let v ← lift (st.1 it)
    call st.1
    if st.2 (dg v) < n then do
      let m ← lift (if it ≠ first + st.2 (dg v) then st.1.swapAt it (first + st.2 (dg v)) else some st.1)
      skaBlockT dg first n k (it + 1) (m, upd st.2 (dg v) (st.2 (dg v) + 1))
    else lift none

/-- The predicate given to `partition` (`inplace_radix_sort.cpp` 278-295). -/
def skaPredicateT (dg : α → Nat) (ps : Parts) (first n : Nat) (st : SkaState α) (index : Nat) : Traced (Mem α) (Bool × SkaState α) :=
  if st.2 index = ps.next index then pure (false, st)
  else do
    let st' ← skaBlockT dg first n (ps.next index - st.2 index) (first + st.2 index) st
    pure (true, st')

/-- `find_if_not` with a predicate that has a state. -/
def findNotST {S σ : Type} (p : σ → Nat → Traced S (Bool × σ)) (rem : List Nat) : Nat → Nat → σ → Traced S (Nat × σ)
  | 0, i, st => pure (i, st)
  | k + 1, i, st => do
    let x ← lift rem[i]?
    let r ← p st x
    if r.1 then findNotST p rem k (i + 1) r.2 else pure (i, r.2)

/-- `advance_last` (`partition.cpp` 71-78) with a predicate that has a state; `k` is `last - first`. -/
def advanceLastST {S σ : Type} (p : σ → Nat → Traced S (Bool × σ)) (rem : List Nat) (first : Nat) : Nat → σ → Traced S (Nat × σ)
  | 0, st => pure (first, st)
  | k + 1, st => do
    let x ← lift rem[first + k]?
    let r ← p st x
    if r.1 then pure (first + k, r.2) else advanceLastST p rem first k r.2

/-- The loop of `partition` (`partition.cpp` 81-88) with a predicate that has a state. -/
def partitionLoopST {S σ : Type} (p : σ → Nat → Traced S (Bool × σ)) : Nat → List Nat → Nat → Nat → σ → Traced S (List Nat × Nat × σ)
  | 0, _, _, _, _ => lift none
  | f + 1, rem, first, last, st =>
    if first = last then pure (rem, first, st)
    else do
      let a ← lift rem[first]?
      let b ← lift rem[last]?
      let r ← findNotST p ((rem.set first b).set last a) (last - first) first st
      if r.1 = last then pure ((rem.set first b).set last a, r.1, r.2)
      else do
        let l ← advanceLastST p ((rem.set first b).set last a) r.1 (last - r.1) r.2
        partitionLoopST p f ((rem.set first b).set last a) r.1 l.1 l.2

/-- `partition` (`partition.cpp` 62-101) of the first `last` elements with a predicate that has a state. -/
def partitionST {S σ : Type} (p : σ → Nat → Traced S (Bool × σ)) (rem : List Nat) (last : Nat) (st : σ) : Traced S (List Nat × Nat × σ) := do
  let r ← findNotST p rem last 0 st
  let l ← advanceLastST p rem r.1 (last - r.1) r.2
  partitionLoopST p (l.1 - r.1 + 1) rem r.1 l.1 l.2

/-- The loop until at most one block remains (`inplace_radix_sort.cpp` 277-296). -/
def skaLoopT {S σ : Type} (p : σ → Nat → Traced S (Bool × σ)) : Nat → List Nat → Nat → σ → Traced S (List Nat × σ)
  | 0, _, _, _ => lift none
  | f + 1, rem, last, st =>
    if last > 1 then do
      let r ← partitionST p rem last st
      skaLoopT p f r.1 r.2.1 r.2.2
    else pure (rem, st)

/-- The loop that sorts the blocks (`inplace_radix_sort.cpp` 297-312). -/
def skaRecurseT (rec : SorterT α) (ps : Parts) (first : Nat) : List Nat → Mem α → Traced (Mem α) (Mem α × Bool)
  | [], m => pure (m, false)
  | d :: ds, m => do
    let r ← sortManyT rec m (first + if d = 0 then 0 else ps.next (d - 1)) (ps.next d - if d = 0 then 0 else ps.next (d - 1))
    let r' ← skaRecurseT rec ps first ds r.1
    pure (r'.1, r.2 || r'.2)

/-- `ska_byte_sort` (`inplace_radix_sort.cpp` 272-313). -/
def skaByteSortT (dg : α → Nat) (rec : SorterT α) : SorterT α := fun m first n => do
  let ps ← partitionCountsT dg m first n
  let r ← skaLoopT (skaPredicateT dg ps first n) (n + ps.remaining.length + 1) ps.remaining ps.remaining.length (m, ps.offset)
  skaRecurseT rec ps first r.1.reverse r.2.1

/-- The thresholds and the sort of the standard library by the whole key, whose comparison calls the key function. -/
structure SkaParamsT (α : Type) where
  stdThreshold : Nat
  flagThreshold : Nat
  std : Mem α → Nat → Nat → Traced (Mem α) (Mem α)

/-- The same without the calls. -/
def SkaParamsT.plain (P : SkaParamsT α) : SkaParams α := ⟨P.stdThreshold, P.flagThreshold, fun m first n => (P.std m first n).2⟩

/-- `containers::sort(to_sort, extract_key_to_less(extract_key))`. -/
def SkaParamsT.stdSort (P : SkaParamsT α) : SorterT α := fun m first n => do
  let m ← P.std m first n
  pure (m, false)

/-- `sort_selector` (`inplace_radix_sort.cpp` 205-216) with `r` bytes left. -/
def sortSelectorT (P : SkaParamsT α) (f : α → Nat) (next : Option (SorterT α)) : Nat → SorterT α
  | 0, m, first, n => runNextT next m first n
  | r + 1, m, first, n =>
    if n ≤ P.stdThreshold then P.stdSort m first n
    else if n < P.flagThreshold then americanFlagSortT (currentByte f r) (r == 0 && next.isNone) (sortSelectorT P f next r) m first n
    else skaByteSortT (currentByte f r) (sortSelectorT P f next r) m first n

/-- The loop of `common_prefix` (`common_prefix.cpp` 41-55). -/
def prefixScanT (len : α → Nat) (eq : Nat → α → α → Bool) (start : Nat) (m : Mem α) (x : α) : Nat → Nat → Nat → Traced (Mem α) Nat
  | 0, _, largest => pure largest
  | k + 1, it, largest => do
    let y ← lift (m it)
    call m
    if start ≤ len y then
      prefixScanT len eq start m x k (it + 1) (min largest (matchLength (fun i => eq i x y) (min (len x) (len y) - start) start))
    else lift none

/-- `common_prefix` (`common_prefix.cpp` 28-57). -/
def commonPrefixT (len : α → Nat) (eq : Nat → α → α → Bool) (start : Nat) (m : Mem α) (first n : Nat) : Traced (Mem α) Nat :=
  match n with
  | 0 => pure 0
  | n + 1 => do
    let x ← lift (m first)
    call m
    if start ≤ len x then prefixScanT len eq start m x n (first + 1) (len x - start) else lift none

/-- `partition` with a predicate that calls the key function (`partition.cpp` 62-101, `inplace_radix_sort.cpp` 322, 387-389). -/
def partitionT (m : Mem α) (p : α → Bool) (first last : Nat) : Traced (Mem α) (Mem α × Nat) := Ask.traced p (partitionA true m first last)

/-- `ListInplaceSorter::sort` (`inplace_radix_sort.cpp` 373-407), see `listStep`. -/
def listStepT (len : α → Nat) (eq : Nat → α → α → Bool) (elemSort : Nat → Option (SorterT α) → SorterT α) (next : Option (SorterT α)) (rest : Nat → SorterT α)
    (idx : Nat) : SorterT α := fun m first n => do
  let k ← commonPrefixT len eq idx m first n
  let p ← partitionT m (fun x => decide (len x ≤ idx + k)) first (first + n)
  let r1 ← sortManyT (runNextT next) p.1 first (p.2 - first)
  let r2 ← sortManyT (elemSort (idx + k) (some (rest (idx + k + 1)))) r1.1 p.2 (first + n - p.2)
  pure (r2.1, r1.2 || r2.2)

/-- `ListInplaceSorter` (`inplace_radix_sort.cpp` 341-420), see `listSort`. -/
def listSortT (P : SkaParamsT α) (len : α → Nat) (eq : Nat → α → α → Bool) (elemSort : Nat → Option (SorterT α) → SorterT α) (next : Option (SorterT α)) :
    Nat → Nat → SorterT α
  | 0 => listStepT len eq elemSort next fun _ => P.stdSort
  | limit + 1 => listStepT len eq elemSort next (listSortT P len eq elemSort next limit)

/-- `inplace_sort` (`inplace_radix_sort.cpp` 319-339) for one sub key, see `inplaceSort`. -/
def inplaceSortT (P : SkaParamsT α) : Desc α → Option (SorterT α) → SorterT α
  | .bool f, next, m, first, n => do
    let p ← partitionT m (fun x => !f x) first (first + n)
    let r1 ← runNextT next p.1 first (p.2 - first)
    let r2 ← runNextT next r1.1 p.2 (first + n - p.2)
    pure (r2.1, r1.2 || r2.2)
  | .num bytes f, next, m, first, n => sortSelectorT P f next bytes m first n
  | .list _ len elem, next, m, first, n =>
    listSortT P len (fun i => (elem i).headEq) (fun i => inplaceSortT P (elem i)) next 15 0 m first n
  | .tuple _ comp, next, m, first, n => inplaceSortT P (comp 0) next m first n

/-- `sort_starter` (`inplace_radix_sort.cpp` 422-436). -/
def sortStarterT (P : SkaParamsT α) : List (Desc α) → Option (SorterT α)
  | [] => none
  | d :: ds => some fun m first n => if n ≤ 1 then pure (m, false) else inplaceSortT P d (sortStarterT P ds) m first n

/-- `inplace_radix_sort` (`inplace_radix_sort.cpp` 438-442). -/
def inplaceRadixSortT (P : SkaParamsT α) (d : Desc α) : SorterT α := fun m first n => runNextT (sortStarterT P d.chain) m first n

/-- `ska_sort` (`ska_sort.cpp` 25-37). -/
def skaSortT (std : Mem α → Nat → Nat → Traced (Mem α) (Mem α)) (d : Desc α) : SorterT α := inplaceRadixSortT ⟨128, 1024, std⟩ d

/-! ## Without exceptions this is the model of the other files -/

section Plain

theorem ite_snd {S R : Type} {c : Prop} [Decidable c] (t u : Traced S R) : (if c then t else u).2 = if c then t.2 else u.2 := by split <;> rfl

@[simp] theorem flip_snd {R : Type} (t : Traced (Both α) R) : t.flip.2 = t.2 := rfl

theorem countLoopT_snd (p : α → Bool) (s b : Mem α) : ∀ k i c, (countLoopT p s b k i c).2 = countLoop p s k i c
  | 0, _, _ => rfl
  | k + 1, i, c => by simp only [countLoopT, countLoop, bind_snd, lift_snd, call_snd, Option.bind_some, countLoopT_snd p s b k]; rfl

theorem boolLoopT_snd (f : α → Bool) (n : Nat) : ∀ k i fp tp cur nxt, (boolLoopT f n k i fp tp cur nxt).2 = boolLoop f n k i fp tp cur nxt
  | 0, _, _, _, _, _ => rfl
  | k + 1, i, fp, tp, cur, nxt => by
    simp only [boolLoopT, boolLoop, bind_snd, lift_snd, call_snd, Option.bind_some, ite_snd, boolLoopT_snd f n k]; rfl

theorem histogramT_snd (f : α → Nat) (bytes : Nat) (s b : Mem α) : ∀ k i c, (histogramT f bytes s b k i c).2 = histogram f bytes s k i c
  | 0, _, _ => rfl
  | k + 1, i, c => by simp only [histogramT, histogram, bind_snd, lift_snd, call_snd, Option.bind_some, histogramT_snd f bytes s b k]; rfl

theorem scatterLoopT_snd (dg : α → Nat) (n : Nat) : ∀ k i c cur nxt, (scatterLoopT dg n k i c cur nxt).2 = scatterLoop dg n k i c cur nxt
  | 0, _, _, _, _ => rfl
  | k + 1, i, c, cur, nxt => by
    simp only [scatterLoopT, scatterLoop, bind_snd, lift_snd, call_snd, Option.bind_some, ite_snd, scatterLoopT_snd dg n k]; rfl

theorem numericLoopT_snd (f : α → Nat) (even : Bool) (n : Nat) (counts : Nat → Nat → Nat) : ∀ r index s b,
    (numericLoopT f even n counts r index s b).2 = numericLoop f even n counts r index s b
  | 0, _, _, _ => rfl
  | 1, index, s, b => by simp only [numericLoopT, numericLoop, bind_snd, lift_snd, pure_snd, ite_snd, scatterLoopT_snd]; rfl
  | r + 2, index, s, b => by
    simp only [numericLoopT, numericLoop, bind_snd, flip_snd, ite_snd, scatterLoopT_snd, numericLoopT_snd f even n counts r,
      numericLoopT_snd f even n counts (r + 1)]
    rfl

theorem numericSortT_snd (bytes : Nat) (f : α → Nat) (n : Nat) (s b : Mem α) : (numericSortT bytes f n s b).2 = numericSort bytes f n s b := by
  simp only [numericSortT, numericSort, bind_snd, pure_snd, histogramT_snd, numericLoopT_snd]; rfl

theorem componentLoopT_snd {gT : Nat → Mem α → Mem α → Traced (Both α) (Mem α × Mem α × Bool)} {g : Nat → Mem α → Mem α → Option (Mem α × Mem α × Bool)}
    (h : ∀ i s b, (gT i s b).2 = g i s b) : ∀ k s b which, (componentLoopT gT k s b which).2 = componentLoop g k s b which
  | 0, _, _, _ => rfl
  | k + 1, s, b, which => by simp only [componentLoopT, componentLoop, bind_snd, flip_snd, ite_snd, h, componentLoopT_snd h k]; rfl

theorem doubleBufferedImplT_snd (n : Nat) : ∀ (d : Desc α) s b, (doubleBufferedImplT n d s b).2 = doubleBufferedImpl n d s b
  | .bool f, s, b => by
    simp only [doubleBufferedImplT, doubleBufferedImpl, boolSortCopyT, boolSortCopy, bind_snd, pure_snd, countLoopT_snd, boolLoopT_snd]; rfl
  | .num bytes f, s, b => numericSortT_snd bytes f n s b
  | .list none _ _, _, _ => rfl
  | .list (some k) _ elem, s, b => componentLoopT_snd (fun i s b => doubleBufferedImplT_snd n (elem i) s b) k s b false
  | .tuple k comp, s, b => componentLoopT_snd (fun i s b => doubleBufferedImplT_snd n (comp i) s b) k s b false

theorem doubleBufferedSortT_snd (tiny : Bool) (d : Desc α) (n nb : Nat) (s b : Mem α) :
    (doubleBufferedSortT tiny d n nb s b).2 = doubleBufferedSort tiny d n nb s b := by
  simp only [doubleBufferedSortT, doubleBufferedSort, ite_snd, pure_snd, lift_snd, doubleBufferedImplT_snd]

/-- The two sorts do the same. -/
def SameSort (gT : SorterT α) (g : Sorter α) : Prop := ∀ m first n, (gT m first n).2 = g m first n

/-- The same for sorts that may be missing. -/
def SameNext : Option (SorterT α) → Option (Sorter α) → Prop
  | none, none => True
  | some gT, some g => SameSort gT g
  | _, _ => False

theorem runNextT_snd : ∀ {nT : Option (SorterT α)} {n : Option (Sorter α)}, SameNext nT n → SameSort (runNextT nT) (runNext n)
  | none, none, _ => fun _ _ _ => rfl
  | some _, some _, h => h

theorem SameNext.isNone : ∀ {nT : Option (SorterT α)} {n : Option (Sorter α)}, SameNext nT n → nT.isNone = n.isNone
  | none, none, _ => rfl
  | some _, some _, _ => rfl

theorem sortManyT_snd {gT : SorterT α} {g : Sorter α} (h : SameSort gT g) : SameSort (sortManyT gT) (sortMany g) := fun m first n => by
  simp only [sortManyT, sortMany, ite_snd, pure_snd, h m first n]

theorem digitCountsT_snd (dg : α → Nat) (m : Mem α) : ∀ k it c, (digitCountsT dg m k it c).2 = digitCounts dg m k it c
  | 0, _, _ => rfl
  | k + 1, it, c => by simp only [digitCountsT, digitCounts, bind_snd, lift_snd, call_snd, Option.bind_some, digitCountsT_snd dg m k]; rfl

theorem partitionCountsT_snd (dg : α → Nat) (m : Mem α) (first n : Nat) : (partitionCountsT dg m first n).2 = partitionCounts dg m first n := by
  simp only [partitionCountsT, partitionCounts, bind_snd, pure_snd, digitCountsT_snd]; rfl

theorem flagLoopT_snd (dg : α → Nat) (ps : Parts) (first n : Nat) : ∀ f m offset ci it,
    (flagLoopT dg ps first n f m offset ci it).2 = flagLoop dg ps first n f m offset ci it
  | 0, _, _, _, _ => rfl
  | f + 1, m, offset, ci, it => by
    simp only [flagLoopT, flagLoop, bind_snd, lift_snd, call_snd, Option.bind_some, ite_snd, pure_snd, flagLoopT_snd dg ps first n f]
    cases m it with
    | none => rfl
    | some v =>
      cases ps.remaining[ci]? with
      | none => rfl
      | some cur =>
        simp only [Option.bind_some, Option.bind_eq_bind]
        split
        · split
          · rfl
          · split
            · cases nextBlock ps offset ps.remaining.length ci with
              | none => rfl
              | some r =>
                cases r with
                | none => rfl
                | some c =>
                  simp only [Option.bind_some, bind_snd, lift_snd, flagLoopT_snd dg ps first n f]
            · rfl
        · rfl

theorem flagRecurseT_snd {rT : SorterT α} {r : Sorter α} (h : SameSort rT r) (ps : Parts) (first : Nat) : ∀ ds start m,
    (flagRecurseT rT ps first ds start m).2 = flagRecurse r ps first ds start m
  | [], _, _ => rfl
  | d :: ds, start, m => by
    simp only [flagRecurseT, flagRecurse, bind_snd, pure_snd, sortManyT_snd h _ _ _, flagRecurseT_snd h ps first ds]; rfl

theorem americanFlagSortT_snd (dg : α → Nat) (done : Bool) {rT : SorterT α} {r : Sorter α} (h : SameSort rT r) :
    SameSort (americanFlagSortT dg done rT) (americanFlagSort dg done r) := fun m first n => by
  simp only [americanFlagSortT, americanFlagSort, flagMoveT, flagMove, bind_snd, pure_snd, ite_snd, partitionCountsT_snd, flagLoopT_snd, flagRecurseT_snd h]; rfl

theorem skaBlockT_snd (dg : α → Nat) (first n : Nat) : ∀ k it st, (skaBlockT dg first n k it st).2 = skaBlock dg first n k it st
  | 0, _, _ => rfl
  | k + 1, it, st => by
    simp only [skaBlockT, skaBlock, bind_snd, lift_snd, call_snd, Option.bind_some, ite_snd, skaBlockT_snd dg first n k]
    cases st.1 it with
    | none => rfl
    | some v =>
      simp only [Option.bind_some, Option.bind_eq_bind]
      split
      · split <;> rfl
      · rfl

theorem skaPredicateT_snd (dg : α → Nat) (ps : Parts) (first n : Nat) (st : SkaState α) (index : Nat) :
    (skaPredicateT dg ps first n st index).2 = skaPredicate dg ps first n st index := by
  simp only [skaPredicateT, skaPredicate, bind_snd, pure_snd, ite_snd, skaBlockT_snd]; rfl

section
variable {S σ : Type} {pT : σ → Nat → Traced S (Bool × σ)} {p : σ → Nat → Option (Bool × σ)} (h : ∀ st x, (pT st x).2 = p st x)
include h

theorem findNotST_snd (rem : List Nat) : ∀ k i st, (findNotST pT rem k i st).2 = findNotS p rem k i st
  | 0, _, _ => rfl
  | k + 1, i, st => by simp only [findNotST, findNotS, bind_snd, lift_snd, pure_snd, ite_snd, h, findNotST_snd rem k]; rfl

theorem advanceLastST_snd (rem : List Nat) (first : Nat) : ∀ k st, (advanceLastST pT rem first k st).2 = advanceLastS p rem first k st
  | 0, _ => rfl
  | k + 1, st => by simp only [advanceLastST, advanceLastS, bind_snd, lift_snd, pure_snd, ite_snd, h, advanceLastST_snd rem first k]; rfl

theorem partitionLoopST_snd : ∀ f rem first last st, (partitionLoopST pT f rem first last st).2 = partitionLoopS p f rem first last st
  | 0, _, _, _, _ => rfl
  | f + 1, rem, first, last, st => by
    simp only [partitionLoopST, partitionLoopS, bind_snd, lift_snd, pure_snd, ite_snd, findNotST_snd h, advanceLastST_snd h, partitionLoopST_snd f]; rfl

theorem partitionST_snd (rem : List Nat) (last : Nat) (st : σ) : (partitionST pT rem last st).2 = partitionS p rem last st := by
  simp only [partitionST, partitionS, bind_snd, findNotST_snd h, advanceLastST_snd h, partitionLoopST_snd h]; rfl

theorem skaLoopT_snd : ∀ f rem last st, (skaLoopT pT f rem last st).2 = skaLoop p f rem last st
  | 0, _, _, _ => rfl
  | f + 1, rem, last, st => by
    simp only [skaLoopT, skaLoop, bind_snd, pure_snd, ite_snd, partitionST_snd h, skaLoopT_snd f]; rfl

end

theorem skaRecurseT_snd {rT : SorterT α} {r : Sorter α} (h : SameSort rT r) (ps : Parts) (first : Nat) : ∀ ds m,
    (skaRecurseT rT ps first ds m).2 = skaRecurse r ps first ds m
  | [], _ => rfl
  | d :: ds, m => by
    simp only [skaRecurseT, skaRecurse, bind_snd, pure_snd, sortManyT_snd h _ _ _, skaRecurseT_snd h ps first ds]; rfl

theorem skaByteSortT_snd (dg : α → Nat) {rT : SorterT α} {r : Sorter α} (h : SameSort rT r) : SameSort (skaByteSortT dg rT) (skaByteSort dg r) := fun m first n => by
  simp only [skaByteSortT, skaByteSort, bind_snd, partitionCountsT_snd, skaRecurseT_snd h]
  cases partitionCounts dg m first n with
  | none => rfl
  | some ps =>
    simp only [Option.bind_some, Option.bind_eq_bind, skaLoopT_snd (skaPredicateT_snd dg ps first n)]

theorem stdSortT_snd (P : SkaParamsT α) : SameSort P.stdSort P.plain.stdSort := fun m first n => by
  simp only [SkaParamsT.stdSort, SkaParams.stdSort, bind_snd, pure_snd]; rfl

theorem sortSelectorT_snd (P : SkaParamsT α) (f : α → Nat) {nT : Option (SorterT α)} {n : Option (Sorter α)} (h : SameNext nT n) : ∀ r,
    SameSort (sortSelectorT P f nT r) (sortSelector P.plain f n r)
  | 0 => runNextT_snd h
  | r + 1 => fun m first k => by
    simp only [sortSelectorT, sortSelector, ite_snd, stdSortT_snd P _ _ _, americanFlagSortT_snd _ _ (sortSelectorT_snd P f h r) _ _ _,
      skaByteSortT_snd _ (sortSelectorT_snd P f h r) _ _ _, h.isNone]
    rfl

theorem prefixScanT_snd (len : α → Nat) (eq : Nat → α → α → Bool) (start : Nat) (m : Mem α) (x : α) : ∀ k it l,
    (prefixScanT len eq start m x k it l).2 = prefixScan len eq start m x k it l
  | 0, _, _ => rfl
  | k + 1, it, l => by
    simp only [prefixScanT, prefixScan, bind_snd, lift_snd, call_snd, Option.bind_some, ite_snd, prefixScanT_snd len eq start m x k]; rfl

theorem commonPrefixT_snd (len : α → Nat) (eq : Nat → α → α → Bool) (start : Nat) (m : Mem α) (first : Nat) : ∀ n,
    (commonPrefixT len eq start m first n).2 = commonPrefix len eq start m first n
  | 0 => rfl
  | n + 1 => by simp only [commonPrefixT, commonPrefix, bind_snd, lift_snd, call_snd, Option.bind_some, ite_snd, prefixScanT_snd]; rfl

theorem partitionT_snd (m : Mem α) (p : α → Bool) (first last : Nat) : (partitionT m p first last).2 = partition true m p first last :=
  (Ask.traced_snd p _).trans (partitionA_run p true m first last)

theorem listStepT_snd {len : α → Nat} {eq : Nat → α → α → Bool} {eT : Nat → Option (SorterT α) → SorterT α} {e : Nat → Option (Sorter α) → Sorter α}
    (he : ∀ i nT n, SameNext nT n → SameSort (eT i nT) (e i n)) {nT : Option (SorterT α)} {n : Option (Sorter α)} (h : SameNext nT n)
    {rT : Nat → SorterT α} {r : Nat → Sorter α} (hr : ∀ i, SameSort (rT i) (r i)) (idx : Nat) :
    SameSort (listStepT len eq eT nT rT idx) (listStep len eq e n r idx) := fun m first k => by
  have h2 := fun i j => sortManyT_snd (he i (some (rT j)) (some (r j)) (hr j))
  simp only [listStepT, listStep, bind_snd, pure_snd, commonPrefixT_snd, partitionT_snd, sortManyT_snd (runNextT_snd h) _ _ _, h2 _ _ _ _ _]
  rfl

theorem listSortT_snd (P : SkaParamsT α) {len : α → Nat} {eq : Nat → α → α → Bool} {eT : Nat → Option (SorterT α) → SorterT α}
    {e : Nat → Option (Sorter α) → Sorter α} (he : ∀ i nT n, SameNext nT n → SameSort (eT i nT) (e i n)) {nT : Option (SorterT α)} {n : Option (Sorter α)}
    (h : SameNext nT n) : ∀ limit idx, SameSort (listSortT P len eq eT nT limit idx) (listSort P.plain len eq e n limit idx)
  | 0, idx => listStepT_snd he h (fun _ => stdSortT_snd P) idx
  | limit + 1, idx => listStepT_snd he h (fun i => listSortT_snd P he h limit i) idx

theorem inplaceSortT_snd (P : SkaParamsT α) : ∀ (d : Desc α) {nT : Option (SorterT α)} {n : Option (Sorter α)}, SameNext nT n →
    SameSort (inplaceSortT P d nT) (inplaceSort P.plain d n)
  | .bool f, nT, n, h => fun m first k => by
    simp only [inplaceSortT, inplaceSort, bind_snd, pure_snd, partitionT_snd, runNextT_snd h _ _ _]; rfl
  | .num bytes f, nT, n, h => sortSelectorT_snd P f h bytes
  | .list _ len elem, nT, n, h => listSortT_snd P (fun i _ _ h' => inplaceSortT_snd P (elem i) h') h 15 0
  | .tuple _ comp, nT, n, h => inplaceSortT_snd P (comp 0) h

theorem sortStarterT_snd (P : SkaParamsT α) : ∀ ds : List (Desc α), SameNext (sortStarterT P ds) (sortStarter P.plain ds)
  | [] => trivial
  | d :: ds => fun m first n => by
    simp only [ite_snd, pure_snd, inplaceSortT_snd P d (sortStarterT_snd P ds) _ _ _]

theorem skaSortT_snd (std : Mem α → Nat → Nat → Traced (Mem α) (Mem α)) (d : Desc α) (m : Mem α) (first n : Nat) :
    (skaSortT std d m first n).2 = skaSort (fun m first n => (std m first n).2) d m first n :=
  runNextT_snd (sortStarterT_snd ⟨128, 1024, std⟩ d.chain) m first n

end Plain

end Verif.Algo
