import Verif.Views.Basic
import Verif.Bounded.AssignProps
import Verif.Bounded.Accumulate
import Verif.Bounded.ArithProps
import Verif.Bounded.ToString

/-!
# Counting elements and moving iterators (property C94)

Ranges without random access are counted, and their iterators moved, one element at a time, with a counter of a bounded integer type. The
counters are the bounded integers of `Verif.Bounded`, so that a counter that leaves its type is undefined.
-/

namespace Verif.Views

open Bounded (BInt constB Holds Yields Step equalB compareB commonType convert abs neg assumeTarget)

variable {σ τ ρ : Type} {W : Nat}

/-- One expression after another: what does not compile stays so, undefined and throwing evaluations end the evaluation. -/
def andThenO {α β : Type} (e : Option (Res α)) (f : α → Option (Res β)) : Option (Res β) :=
  match e with
  | none => none
  | some (.ok a) => f a
  | some .ub => some .ub
  | some .exn => some .exn

/-- The instantiation of a function that increments `counter` on some path: rejected if `++counter` is
(`bounded/arithmetic/increment_decrement.cpp` 28-43), also when that path is never taken. -/
def usesInc {β : Type} (W : Nat) (counter : BInt) (body : Option (Res β)) : Option (Res β) :=
  match Step.inc.run W counter with
  | none => none
  | some _ => body

/-! ## The code -/

/-- `distance` (`algorithms/distance.cpp` 24-28), the branch that counts; `difference` is the counter. `none` if it does not compile or has not
ended after that many steps. -/
def distanceLoop (W : Nat) (r : Rng σ ρ) : Nat → σ → BInt → Option (Res BInt)
  | 0, _, _ => none
  | f + 1, s, difference =>
    andThenO (some (r.atEnd s)) fun done =>
    if done then some (.ok difference)
    else
      andThenO (Step.inc.run W difference) fun difference =>
      andThenO (some (r.next s)) fun s => distanceLoop W r f s difference

/-- `distance(first, last)` (`algorithms/distance.cpp` 19-30) for iterators that cannot be subtracted; `D` is `iter_difference_t`. -/
def distance (W : Nat) (D : Bounded.Rng) (r : Rng σ ρ) (f : Nat) (first : σ) : Option (Res BInt) :=
  andThenO (convert W D (constB 0)) fun difference => usesInc W difference (distanceLoop W r f first difference)

/-- `range_size_t` (`range_size_t.cpp` 18-24) of a range that has neither `size_type` nor `size()`. -/
def defaultSize (D : Bounded.Rng) : Bounded.Rng := ⟨0, D.hi⟩

/-- `linear_size` (`linear_size.cpp` 28-39) of a range that has neither `size()` nor `linear_size()`; `S` is `range_size_t`. -/
def linearSize (W : Nat) (S D : Bounded.Rng) (R : Range σ ρ) (f : Nat) : Option (Res BInt) :=
  andThenO (distance W D R.ops f R.first) fun d => assumeTarget W S d

/-- `is_empty` (`is_empty.cpp` 24-31): ranges whose type says that they have elements are not asked. -/
def isEmpty (S : Bounded.Rng) (R : Range σ ρ) : Res Bool := if 0 < S.lo then .ok false else R.ops.atEnd R.first

/-- `count_if` (`algorithms/count.cpp` 22-31), its loop; the counter is of `count_type` (`count_type.cpp` 14-15, `offset_type.cpp` 15-23). -/
def countIfLoop (W : Nat) (r : Rng σ ρ) (p : ρ → Bool) : Nat → σ → BInt → Option (Res BInt)
  | 0, _, _ => none
  | f + 1, s, sum =>
    andThenO (some (r.atEnd s)) fun done =>
    if done then some (.ok sum)
    else
      andThenO (some (r.deref s)) fun value =>
      andThenO (if p value then Step.inc.run W sum else some (.ok sum)) fun sum =>
      andThenO (some (r.next s)) fun s => countIfLoop W r p f s sum

/-- `count_if` (`algorithms/count.cpp` 22-31) of a range whose iterators have the difference type `D`: the counter starts at zero. -/
def countIfB (W : Nat) (D : Bounded.Rng) (R : Range σ ρ) (p : ρ → Bool) (f : Nat) : Option (Res BInt) :=
  andThenO (convert W (defaultSize D) (constB 0)) fun sum => usesInc W sum (countIfLoop W R.ops p f R.first sum)

/-- The loops of `advance` (`algorithms/advance.cpp` 31-35, 36-45): `step` changes the iterator, then the counter `n` is incremented. -/
def advanceLoop (W : Nat) (step : σ → Res σ) (limit : BInt) : Nat → σ → BInt → Option (Res σ)
  | 0, _, _ => none
  | f + 1, s, n =>
    andThenO (some (equalB W n limit)) fun done =>
    if done then some (.ok s)
    else
      andThenO (some (step s)) fun s =>
      andThenO (Step.inc.run W n) fun n => advanceLoop W step limit f s n

/-- `advance(it, offset)` (`algorithms/advance.cpp` 31-35) for iterators that can only be incremented. The type of the counter is that of
lines 25-29. -/
def advanceFwd (W : Nat) (D : Bounded.Rng) (next : σ → Res σ) (offset : BInt) (f : Nat) (it : σ) : Option (Res σ) :=
  match commonType W D offset.rng with
  | none => none
  | some T => andThenO (convert W T (constB 0)) fun n => usesInc W n (advanceLoop W next offset f it n)

/-- `advance(it, offset)` (`algorithms/advance.cpp` 36-45) for bidirectional iterators. -/
def advanceBidi (W : Nat) (D : Bounded.Rng) (next prev : σ → Res σ) (offset : BInt) (f : Nat) (it : σ) : Option (Res σ) :=
  andThenO (abs W offset) fun positive =>
  match commonType W D offset.rng with
  | none => none
  | some T =>
    andThenO (convert W T (constB 0)) fun n =>
    usesInc W n (advanceLoop W (fun s => do if (← compareB W offset (constB 0)) ≠ .lt then next s else prev s) positive f it n)

/-- `next(it)` (`algorithms/advance.cpp` 64-70) for iterators with bounded differences: the offset is `1_bi` (54-61). -/
def nextOf (W : Nat) (D : Bounded.Rng) (next prev : σ → Res σ) (f : Nat) (it : σ) : Option (Res σ) :=
  advanceBidi W D next prev (constB 1) f it

/-- `prev(it, offset)` (`algorithms/advance.cpp` 73-76). -/
def prevBy (W : Nat) (D : Bounded.Rng) (next prev : σ → Res σ) (offset : BInt) (f : Nat) (it : σ) : Option (Res σ) :=
  andThenO (neg W offset) fun o => advanceBidi W D next prev o f it

/-- `prev(it)` (`algorithms/advance.cpp` 77-79). -/
def prevOf (W : Nat) (D : Bounded.Rng) (next prev : σ → Res σ) (f : Nat) (it : σ) : Option (Res σ) :=
  prevBy W D next prev (constB 1) f it

/-- `mutable_iterator(container, it)` (`mutable_iterator.cpp` 31-38) without a member of that name: `minus` is the difference of an iterator of
the constant container and one of the container. -/
def mutableIterator (r : RA σ ρ) (minus : τ → σ → Res Int) (first : σ) (it : τ) : Res σ := do
  let d ← minus it first
  r.add first d

/-! ## Facts about counters -/

/-- The bounds are not at the edge of the widest type: so that one can be added and they can be negated. -/
def Small (W : Nat) (r : Bounded.Rng) : Prop := -(2 ^ (W - 2)) ≤ r.lo ∧ r.hi ≤ 2 ^ (W - 2)

theorem pow_quarter (hW : 64 ≤ W) : (2 : Int) ^ (W - 1) = 2 * 2 ^ (W - 2) ∧ (2 : Int) ^ (W - 2) ≥ 2 ^ 62 := by
  constructor
  · rw [show W - 1 = (W - 2) + 1 by omega, pow_succ]
    omega
  · exact pow_le_pow_right₀ (by omega) (by omega)

theorem inc_compiles (hW : 64 ≤ W) {x : BInt} {v : Int} (hx : Holds W x v) (hs : Small W x.rng) (hlt : x.rng.lo < x.rng.hi) :
    Step.inc.run W x ≠ none := by
  have pq := pow_quarter hW
  have h1 := Bounded.constB_holds hW (Bounded.rep_one hW)
  have hp : Bounded.plus W x (constB 1) ≠ none := by
    intro h
    rw [Bounded.C01_add_rejected_iff hW hx.1 h1.1] at h
    apply h
    right
    unfold Small at hs
    simp only [constB]
    omega
  obtain ⟨c, c1, c2, c3⟩ := Bounded.plus_ok hW hx h1 hp
  show Bounded.compound W Bounded.plus x (constB 1) ≠ none
  unfold Bounded.compound
  rw [c1]
  simp only [Option.bind_eq_bind, Option.bind_some]
  intro h
  rw [Bounded.C12_assign_rejected_iff hW hx c3] at h
  apply h
  refine ⟨x.rng.hi, ?_, ?_⟩ <;> rw [Bounded.Rng.Mem]
  · omega
  · rw [c2]
    simp only [constB]
    omega

theorem inc_spec (hW : 64 ≤ W) {x : BInt} {v : Int} (hx : Holds W x v) (hs : Small W x.rng) (hlt : x.rng.lo < x.rng.hi) :
    (v + 1 ≤ x.rng.hi → ∃ c, Step.inc.run W x = some (.ok c) ∧ c.rng = x.rng ∧ Holds W c (v + 1)) ∧
    (x.rng.hi < v + 1 → Step.inc.run W x = some .ub) := by
  have h := Bounded.step_spec hW hx Bounded.StepHolds.inc (fun b e => by cases e) (inc_compiles hW hx hs hlt)
  simp only [Bounded.MStep.result] at h
  have m := Bounded.value_mem hx.2 ((Bounded.wf_iff hW _).mp hx.1).1
  unfold Bounded.Rng.Mem at m
  exact ⟨fun hv => h.1 (by omega), fun hv => h.2 (by omega)⟩

theorem usesInc_eq (hW : 64 ≤ W) {x : BInt} {v : Int} (hx : Holds W x v) (hs : Small W x.rng) (hlt : x.rng.lo < x.rng.hi) {β : Type}
    (b : Option (Res β)) : usesInc W x b = b := by
  unfold usesInc
  cases h : Step.inc.run W x with
  | none => exact absurd h (inc_compiles hW hx hs hlt)
  | some _ => rfl

/-- Counters whose type has only one value cannot be incremented. -/
theorem usesInc_single (hW : 64 ≤ W) {x : BInt} {v : Int} (hx : Holds W x v) (he : x.rng.lo = x.rng.hi) {β : Type}
    (b : Option (Res β)) : usesInc W x b = none := by
  have h : Step.inc.run W x = none := by
    have h1 := Bounded.constB_holds hW (Bounded.rep_one hW)
    show Bounded.compound W Bounded.plus x (constB 1) = none
    unfold Bounded.compound
    by_cases hp : Bounded.plus W x (constB 1) = none
    · rw [hp]
      rfl
    · obtain ⟨c, c1, c2, c3⟩ := Bounded.plus_ok hW hx h1 hp
      rw [c1]
      simp only [Option.bind_eq_bind, Option.bind_some]
      rw [Bounded.C12_assign_rejected_iff hW hx c3]
      rintro ⟨z, z1, z2⟩
      rw [Bounded.Rng.Mem] at z1 z2
      rw [c2] at z2
      simp only [constB] at z2
      omega
  unfold usesInc
  rw [h]

theorem zero_spec (hW : 64 ≤ W) {r : Bounded.Rng} (hr : r.Wf W) (h0 : r.lo ≤ 0 ∧ 0 ≤ r.hi) :
    ∃ c, convert W r (constB 0) = some (.ok c) ∧ c.rng = r ∧ Holds W c 0 :=
  Bounded.convert_holds hW hr (Bounded.constB_holds hW (by have := Bounded.pow_facts hW; unfold Bounded.Rep; omega))
    (by simp only [constB]; omega)

theorem commonType_spec (hW : 64 ≤ W) {a b : Bounded.Rng} (ha : a.Wf W) (hb : b.Wf W) (sa : Small W a) (sb : Small W b) :
    ∃ T, commonType W a b = some T ∧ T = ⟨min a.lo b.lo, max a.hi b.hi⟩ ∧ T.Wf W ∧ Small W T := by
  have pq := pow_quarter hW
  have pf := Bounded.pow_facts hW
  have ra := ha.rep hW
  have rb := hb.rep hW
  have wa := ((Bounded.wf_iff hW _).mp ha).1
  unfold Small at sa sb
  have hst : min a.lo b.lo ≤ max a.hi b.hi ∧ Bounded.Storable W (min a.lo b.lo) (max a.hi b.hi) :=
    ⟨by omega, by unfold Bounded.Storable; omega⟩
  refine ⟨⟨min a.lo b.lo, max a.hi b.hi⟩, ?_, rfl, (Bounded.wf_iff hW _).2 hst, ?_⟩
  · unfold commonType
    rw [Bounded.safeMin_eq hW ra.1 rb.1, Bounded.safeMax_eq hW ra.2 rb.2, Bounded.mkInteger_eq hW, if_pos hst]
  · unfold Small
    simp only
    omega

/-! ## Counting -/

theorem distanceLoop_spec (hW : 64 ≤ W) {r : Rng σ ρ} : ∀ {xs : List ρ} {s : σ} {f : Nat} {d : BInt} {v : Int},
    Visits r s xs → xs.length < f → Holds W d v → Small W d.rng → d.rng.lo < d.rng.hi →
    (v + xs.length ≤ d.rng.hi → ∃ c, distanceLoop W r f s d = some (.ok c) ∧ c.rng = d.rng ∧ Holds W c (v + xs.length)) ∧
    (d.rng.hi < v + xs.length → distanceLoop W r f s d = some .ub)
  | _, _, 0, _, _, _, hf, _, _, _ => by omega
  | [], s, f + 1, d, v, h, _, hd, _, _ => by
    rw [Visits] at h
    have m := Bounded.value_mem hd.2 ((Bounded.wf_iff hW _).mp hd.1).1
    unfold Bounded.Rng.Mem at m
    refine ⟨fun _ => ⟨d, ?_, rfl, by simpa using hd⟩, fun hlt => ?_⟩
    · simp only [distanceLoop, h, andThenO, if_true]
    · simp only [List.length_nil, Nat.cast_zero, Int.add_zero] at hlt
      omega
  | x :: xs, s, f + 1, d, v, h, hf, hd, hs, hlt => by
    obtain ⟨h1, h2, s', h3, h4⟩ := h
    have hi := inc_spec hW hd hs hlt
    have hlen : ((x :: xs).length : Int) = xs.length + 1 := by simp
    by_cases hv : v + 1 ≤ d.rng.hi
    · obtain ⟨c, c1, c2, c3⟩ := hi.1 hv
      have e : distanceLoop W r (f + 1) s d = distanceLoop W r f s' c := by
        simp only [distanceLoop, h1, andThenO, c1, h3, Bool.false_eq_true, if_false]
      have ih := distanceLoop_spec hW (xs := xs) (s := s') (f := f) (d := c) h4 (by simpa using hf) c3 (by rw [c2]; exact hs)
        (by rw [c2]; exact hlt)
      rw [c2] at ih
      rw [e, hlen, show v + ((xs.length : Int) + 1) = v + 1 + xs.length by omega]
      exact ih
    · refine ⟨fun h => by omega, fun _ => ?_⟩
      simp only [distanceLoop, h1, andThenO, hi.2 (by omega), Bool.false_eq_true, if_false]

/-- **C94**: `distance` of iterators that cannot be subtracted is the number of elements between them if the difference type can hold it, and
undefined otherwise. -/
theorem C94_distance (hW : 64 ≤ W) {D : Bounded.Rng} (hD : D.Wf W) (h0 : D.lo ≤ 0 ∧ 0 ≤ D.hi) (hlt : D.lo < D.hi) (hs : Small W D)
    {r : Rng σ ρ} {s : σ} {xs : List ρ} (h : Visits r s xs) {f : Nat} (hf : xs.length < f) :
    (xs.length ≤ D.hi → Yields (distance W D r f s) D xs.length) ∧ (D.hi < xs.length → distance W D r f s = some .ub) := by
  obtain ⟨z, z1, z2, z3⟩ := zero_spec hW hD h0
  have hl := distanceLoop_spec hW h hf z3 (by rw [z2]; exact hs) (by rw [z2]; exact hlt)
  rw [z2, Int.zero_add] at hl
  have e : distance W D r f s = distanceLoop W r f s z := by simp only [distance, z1, andThenO]; exact usesInc_eq hW z3 (by rw [z2]; exact hs) (by rw [z2]; exact hlt) _
  rw [e]
  refine ⟨fun hle => ?_, hl.2⟩
  obtain ⟨c, c1, c2, c3⟩ := hl.1 hle
  exact Bounded.yields_of hW ⟨c, c1, c2, c3.2⟩ hD

/-- **C94**: `linear_size` of a range without `size()` is the number of its elements, for every range whose size its types can hold, and
undefined for all others. -/
theorem C94_linear_size (hW : 64 ≤ W) {D S : Bounded.Rng} (hD : D.Wf W) (hS : S.Wf W) (h0 : D.lo ≤ 0 ∧ 0 ≤ D.hi) (hlt : D.lo < D.hi)
    (hs : Small W D) (hov : S.lo ≤ D.hi ∧ D.lo ≤ S.hi) {R : Range σ ρ} {xs : List ρ} (h : R.Is xs) {f : Nat} (hf : xs.length < f) :
    (xs.length ≤ D.hi → S.lo ≤ xs.length → xs.length ≤ S.hi → Yields (linearSize W S D R f) S xs.length) ∧
    (¬ (xs.length ≤ D.hi ∧ S.lo ≤ xs.length ∧ xs.length ≤ S.hi) → linearSize W S D R f = some .ub) := by
  have hd := C94_distance hW hD h0 hlt hs h.1 hf
  refine ⟨fun h1 h2 h3 => ?_, fun hn => ?_⟩
  · obtain ⟨c, c1, c2, c3, -⟩ := hd.1 h1
    obtain ⟨b, b1, b2, b3⟩ := Bounded.assumeTarget_spec hW hS (b := c) ⟨by rw [c2]; exact hD, c3⟩ ⟨h2, h3⟩
    exact Bounded.yields_of hW ⟨b, by simp only [linearSize, c1, andThenO, b1], b2, b3.2⟩ hS
  · by_cases h1 : xs.length ≤ D.hi
    · obtain ⟨c, c1, c2, c3, -⟩ := hd.1 h1
      simp only [linearSize, c1, andThenO]
      exact Bounded.assumeTarget_ub hW hS ⟨by rw [c2]; exact hD, c3⟩ (by omega) (by rw [c2]; exact hov)
    · simp only [linearSize, hd.2 (by omega), andThenO]

/-- **C94**: with the size type that the library chooses, `linear_size` is defined exactly when the difference type can hold the size. -/
theorem C94_linear_size_default (hW : 64 ≤ W) {D : Bounded.Rng} (hD : D.Wf W) (h0 : D.lo ≤ 0 ∧ 0 ≤ D.hi) (hlt : D.lo < D.hi) (hs : Small W D)
    {R : Range σ ρ} {xs : List ρ} (h : R.Is xs) {f : Nat} (hf : xs.length < f) :
    (xs.length ≤ D.hi → Yields (linearSize W (defaultSize D) D R f) (defaultSize D) xs.length) ∧
    (D.hi < xs.length → linearSize W (defaultSize D) D R f = some .ub) := by
  have pq := pow_quarter hW
  have hS : (defaultSize D).Wf W := by
    unfold Small at hs
    rw [Bounded.wf_iff hW]
    unfold defaultSize Bounded.Storable
    simp only
    omega
  have := C94_linear_size hW hD hS h0 hlt hs (by unfold defaultSize; simp only; omega) h hf
  unfold defaultSize at *
  simp only at this ⊢
  exact ⟨fun h1 => this.1 h1 (by omega) h1, fun h1 => this.2 (by omega)⟩

/-- **C94**: `is_empty` tells whether a range has no elements, provided that the size type of the range holds its size. -/
theorem C94_is_empty {S : Bounded.Rng} {R : Range σ ρ} {xs : List ρ} (h : R.Is xs) (hS : S.lo ≤ xs.length) :
    isEmpty S R = .ok (decide (xs = [])) := by
  have hv := h.1
  unfold isEmpty
  cases xs with
  | nil =>
    rw [Visits] at hv
    rw [if_neg (by simpa using hS), hv]
    rfl
  | cons x xs =>
    simp only [hv.1, ite_self]
    rfl

theorem countIfLoop_spec (hW : 64 ≤ W) {r : Rng σ ρ} {p : ρ → Bool} : ∀ {xs : List ρ} {s : σ} {f : Nat} {d : BInt} {v : Int},
    Visits r s xs → xs.length < f → Holds W d v → Small W d.rng → d.rng.lo < d.rng.hi →
    (v + xs.countP p ≤ d.rng.hi → ∃ c, countIfLoop W r p f s d = some (.ok c) ∧ c.rng = d.rng ∧ Holds W c (v + xs.countP p)) ∧
    (d.rng.hi < v + xs.countP p → countIfLoop W r p f s d = some .ub)
  | _, _, 0, _, _, _, hf, _, _, _ => by omega
  | [], s, f + 1, d, v, h, _, hd, _, _ => by
    rw [Visits] at h
    have m := Bounded.value_mem hd.2 ((Bounded.wf_iff hW _).mp hd.1).1
    unfold Bounded.Rng.Mem at m
    refine ⟨fun _ => ⟨d, ?_, rfl, by simpa using hd⟩, fun hlt => ?_⟩
    · simp only [countIfLoop, h, andThenO, if_true]
    · simp only [List.countP_nil, Nat.cast_zero, Int.add_zero] at hlt
      omega
  | x :: xs, s, f + 1, d, v, h, hf, hd, hs, hlt => by
    obtain ⟨h1, h2, s', h3, h4⟩ := h
    have hi := inc_spec hW hd hs hlt
    cases hp : p x with
    | false =>
      have e : countIfLoop W r p (f + 1) s d = countIfLoop W r p f s' d := by
        simp only [countIfLoop, h1, h2, andThenO, hp, h3, Bool.false_eq_true, if_false]
      rw [e, List.countP_cons_of_neg (by simp [hp])]
      exact countIfLoop_spec hW (xs := xs) (s := s') (f := f) (d := d) h4 (by simpa using hf) hd hs hlt
    | true =>
      have hlen : ((x :: xs).countP p : Int) = xs.countP p + 1 := by rw [List.countP_cons_of_pos hp]; simp
      by_cases hv : v + 1 ≤ d.rng.hi
      · obtain ⟨c, c1, c2, c3⟩ := hi.1 hv
        have e : countIfLoop W r p (f + 1) s d = countIfLoop W r p f s' c := by
          simp only [countIfLoop, h1, h2, andThenO, hp, c1, h3, Bool.false_eq_true, if_false, if_true]
        have ih := countIfLoop_spec hW (xs := xs) (s := s') (f := f) (d := c) (p := p) h4 (by simpa using hf) c3 (by rw [c2]; exact hs)
          (by rw [c2]; exact hlt)
        rw [c2] at ih
        rw [e, hlen, show v + ((xs.countP p : Int) + 1) = v + 1 + xs.countP p by omega]
        exact ih
      · refine ⟨fun h => by omega, fun _ => ?_⟩
        simp only [countIfLoop, h1, h2, andThenO, hp, hi.2 (by omega), Bool.false_eq_true, if_false, if_true]

/-- **C94**: `count_if` counts exactly, also in ranges with more elements than its result type can hold, as long as the count itself fits. -/
theorem C94_count_if (hW : 64 ≤ W) {D : Bounded.Rng} (h0 : 0 < D.hi) (hs : Small W D)
    {R : Range σ ρ} {xs : List ρ} (h : R.Is xs) {p : ρ → Bool} {f : Nat} (hf : xs.length < f) :
    ((xs.filter p).length ≤ D.hi → Yields (countIfB W D R p f) ⟨0, D.hi⟩ (xs.filter p).length) ∧
    (D.hi < (xs.filter p).length → countIfB W D R p f = some .ub) := by
  have pq := pow_quarter hW
  unfold Small at hs
  have hS : (defaultSize D).Wf W := by
    rw [Bounded.wf_iff hW]
    unfold defaultSize Bounded.Storable
    simp only
    omega
  obtain ⟨z, z1, z2, z3⟩ := zero_spec hW hS (by unfold defaultSize; simp only; omega)
  have hl := countIfLoop_spec hW (p := p) h.1 hf z3 (by rw [z2]; unfold defaultSize Small; simp only; omega)
    (by rw [z2]; unfold defaultSize; exact h0)
  rw [z2, Int.zero_add, List.countP_eq_length_filter] at hl
  have e : countIfB W D R p f = countIfLoop W R.ops p f R.first z := by
    simp only [countIfB, z1, andThenO]
    exact usesInc_eq hW z3 (by rw [z2]; unfold defaultSize Small; simp only; omega) (by rw [z2]; unfold defaultSize; exact h0) _
  rw [e]
  refine ⟨fun hle => ?_, hl.2⟩
  obtain ⟨c, c1, c2, c3⟩ := hl.1 hle
  exact Bounded.yields_of hW ⟨c, c1, c2, c3.2⟩ hS

/-- **C94** is violated for ranges that are empty by their type, such as `array<T, 0>`, although their iterators are made for generic code
(`contiguous_iterator.cpp` 57-65): the counter is an `integer<0, 0>`, so `count_if` and `count` do not compile for them, whatever the range
and the predicate. -/
theorem C94_count_if_zero_size_violated (hW : 64 ≤ W) {D : Bounded.Rng} (h0 : D.hi = 0) (R : Range σ ρ) (p : ρ → Bool) (f : Nat) :
    countIfB W D R p f = none := by
  have pq := pow_quarter hW
  have hS : (defaultSize D).Wf W := by
    rw [Bounded.wf_iff hW]
    unfold defaultSize Bounded.Storable
    simp only
    omega
  obtain ⟨z, z1, z2, z3⟩ := zero_spec hW hS (by unfold defaultSize; simp only; omega)
  simp only [countIfB, z1, andThenO]
  exact usesInc_single hW z3 (by rw [z2]; exact h0.symm) _

/-! ## Moving -/

theorem advanceLoop_spec (hW : 64 ≤ W) {step : σ → Res σ} {limit : BInt} {l : Int} (hl : Holds W limit l) {at_ : Nat → σ} :
    ∀ (k : Nat) {i f : Nat} {n : BInt} {v : Int}, (∀ j, j < k → step (at_ (i + j)) = .ok (at_ (i + j + 1))) → l = v + k → k < f →
      Holds W n v → Small W n.rng → n.rng.lo < n.rng.hi → l ≤ n.rng.hi →
      advanceLoop W step limit f (at_ i) n = some (.ok (at_ (i + k)))
  | _, _, 0, _, _, _, _, hf, _, _, _, _ => by omega
  | k, i, f + 1, n, v, hstep, hk, hf, hn, hs, hlt, hle => by
    obtain ⟨b, b1, b2⟩ := Bounded.C09_equal_exact hW hn.1 hl.1 hn.2 hl.2
    cases k with
    | zero =>
      have : b = true := b2.2 (by simpa using hk.symm)
      subst this
      simp only [advanceLoop, b1, andThenO, if_true, Nat.add_zero]
    | succ k =>
      have : b = false := by
        cases b with
        | false => rfl
        | true => have := b2.1 rfl; push_cast at hk; omega
      subst this
      push_cast at hk
      obtain ⟨c, c1, c2, c3⟩ := (inc_spec hW hn hs hlt).1 (by omega)
      have h0 := hstep 0 (by omega)
      simp only [Nat.add_zero] at h0
      simp only [advanceLoop, b1, andThenO, Bool.false_eq_true, if_false, h0, c1]
      have := advanceLoop_spec hW hl (at_ := at_) k (i := i + 1) (f := f) (n := c)
        (fun j hj => by have := hstep (j + 1) (by omega); rwa [show i + (j + 1) = i + 1 + j by omega] at this)
        (show l = v + 1 + k by omega) (by omega) c3 (by rw [c2]; exact hs) (by rw [c2]; exact hlt) (by rw [c2]; exact hle)
      rw [this, show i + 1 + k = i + (k + 1) by omega]

/-- The iterators of a range with `len` elements are `pos 0`, ..., `pos len`, and can be moved both ways. -/
structure BothWays (next prev : σ → Res σ) (pos : Nat → σ) (len : Nat) : Prop where
  next : ∀ i, i < len → next (pos i) = .ok (pos (i + 1))
  prev : ∀ i, i < len → prev (pos (i + 1)) = .ok (pos i)

/-- **C94**: `advance` of an iterator that can only be incremented moves it by the offset, to every position of the range. -/
theorem C94_advance_forward (hW : 64 ≤ W) {D : Bounded.Rng} (hD : D.Wf W) (h0 : D.lo ≤ 0 ∧ 0 ≤ D.hi) (hlt : D.lo < D.hi) (hs : Small W D)
    {next : σ → Res σ} {pos : Nat → σ} {len : Nat} (hnext : ∀ i, i < len → next (pos i) = .ok (pos (i + 1)))
    {offset : BInt} {k : Nat} (ho : Holds W offset k) (hso : Small W offset.rng) {i : Nat} (hi : i + k ≤ len) {f : Nat} (hf : k < f) :
    advanceFwd W D next offset f (pos i) = some (.ok (pos (i + k))) := by
  obtain ⟨T, t1, t2, t3, t4⟩ := commonType_spec hW hD ho.1 hs hso
  have mo := Bounded.value_mem ho.2 ((Bounded.wf_iff hW _).mp ho.1).1
  unfold Bounded.Rng.Mem at mo
  have hT : T.lo ≤ 0 ∧ 0 ≤ T.hi ∧ T.lo < T.hi ∧ (k : Int) ≤ T.hi := by rw [t2]; simp only; omega
  obtain ⟨z, z1, z2, z3⟩ := zero_spec hW t3 ⟨hT.1, hT.2.1⟩
  simp only [advanceFwd, t1, z1, andThenO]
  rw [usesInc_eq hW z3 (by rw [z2]; exact t4) (by rw [z2]; exact hT.2.2.1)]
  exact advanceLoop_spec hW ho (at_ := pos) k (fun j hj => hnext _ (by omega)) (by omega) hf z3 (by rw [z2]; exact t4)
    (by rw [z2]; exact hT.2.2.1) (by rw [z2]; exact hT.2.2.2)

theorem advanceLoop_never (hW : 64 ≤ W) {step : σ → Res σ} {limit : BInt} {l : Int} (hl : Holds W limit l) :
    ∀ (f : Nat) {s t : σ} {n : BInt} {v : Int}, Holds W n v → l < v → Small W n.rng → n.rng.lo < n.rng.hi →
      advanceLoop W step limit f s n ≠ some (.ok t)
  | 0, _, _, _, _, _, _, _, _ => by simp [advanceLoop]
  | f + 1, s, t, n, v, hn, hlv, hs, hlt => by
    obtain ⟨b, b1, b2⟩ := Bounded.C09_equal_exact hW hn.1 hl.1 hn.2 hl.2
    have : b = false := by
      cases b with
      | false => rfl
      | true => have := b2.1 rfl; omega
    subst this
    simp only [advanceLoop, b1, andThenO, Bool.false_eq_true, if_false]
    cases hst : step s with
    | ub => simp
    | exn => simp
    | ok s' =>
      simp only
      have hi := inc_spec hW hn hs hlt
      by_cases hv : v + 1 ≤ n.rng.hi
      · obtain ⟨c, c1, c2, c3⟩ := hi.1 hv
        rw [c1]
        exact advanceLoop_never hW hl f c3 (by omega) (by rw [c2]; exact hs) (by rw [c2]; exact hlt)
      · rw [hi.2 (by omega)]
        simp

/-- **C94**: an iterator that can only be incremented is never moved by a negative offset: there is no result, from any iterator. -/
theorem C94_advance_forward_negative (hW : 64 ≤ W) {D : Bounded.Rng} (hD : D.Wf W) (h0 : D.lo ≤ 0 ∧ 0 ≤ D.hi) (hlt : D.lo < D.hi)
    (hs : Small W D) (next : σ → Res σ) {offset : BInt} {k : Int} (ho : Holds W offset k) (hso : Small W offset.rng) (hk : k < 0)
    (f : Nat) (s t : σ) : advanceFwd W D next offset f s ≠ some (.ok t) := by
  obtain ⟨T, t1, t2, t3, t4⟩ := commonType_spec hW hD ho.1 hs hso
  have hT : T.lo ≤ 0 ∧ 0 ≤ T.hi ∧ T.lo < T.hi := by rw [t2]; simp only; omega
  obtain ⟨z, z1, z2, z3⟩ := zero_spec hW t3 ⟨hT.1, hT.2.1⟩
  simp only [advanceFwd, t1, z1, andThenO]
  rw [usesInc_eq hW z3 (by rw [z2]; exact t4) (by rw [z2]; exact hT.2.2)]
  exact advanceLoop_never hW ho f z3 (by omega) (by rw [z2]; exact t4) (by rw [z2]; exact hT.2.2)

theorem abs_compiles (hW : 64 ≤ W) {a : BInt} {x : Int} (ha : Holds W a x) (hs : Small W a.rng) :
    abs W a ≠ none ∧ neg W a ≠ none := by
  have pq := pow_quarter hW
  unfold Small at hs
  have hn : neg W a ≠ none := by
    intro h
    rw [Bounded.C03_neg_rejected_iff hW ha.1] at h
    apply h
    right
    have := ((Bounded.wf_iff hW _).mp ha.1).1
    omega
  exact ⟨Bounded.C16_to_string_accepts hW ha (Or.inl (by omega)), hn⟩

/-- **C94**: `advance` of a bidirectional iterator moves it by the offset, forwards or backwards, to every position of the range. -/
theorem C94_advance (hW : 64 ≤ W) {D : Bounded.Rng} (hD : D.Wf W) (h0 : D.lo ≤ 0) (hlt : D.lo < D.hi) (hs : Small W D)
    {next prev : σ → Res σ} {pos : Nat → σ} {len : Nat} (hb : BothWays next prev pos len) (hlen : (len : Int) ≤ D.hi)
    {offset : BInt} {k : Int} (ho : Holds W offset k) (hso : Small W offset.rng) {i j : Nat} (hi : i ≤ len) (hj : j ≤ len)
    (hk : (j : Int) = i + k) {f : Nat} (hf : k.natAbs < f) :
    advanceBidi W D next prev offset f (pos i) = some (.ok (pos j)) := by
  obtain ⟨T, t1, t2, t3, t4⟩ := commonType_spec hW hD ho.1 hs hso
  obtain ⟨a, a1, a2, -⟩ := Bounded.abs_value hW ho (abs_compiles hW ho hso).1
  have hz : Holds W (constB 0) 0 := Bounded.constB_holds hW (by have := Bounded.pow_facts hW; unfold Bounded.Rep; omega)
  obtain ⟨o, c1, c2, c3, c4⟩ := Bounded.C09_compare_exact hW ho.1 hz.1 ho.2 hz.2
  have hT : T.lo ≤ 0 ∧ 0 ≤ T.hi ∧ T.lo < T.hi ∧ |k| ≤ T.hi := by
    rw [t2]
    simp only
    refine ⟨by omega, by omega, by omega, ?_⟩
    rw [abs_le]
    omega
  obtain ⟨z, z1, z2, z3⟩ := zero_spec hW t3 ⟨hT.1, hT.2.1⟩
  simp only [advanceBidi, a1, t1, z1, andThenO, c1]
  rw [usesInc_eq hW z3 (by rw [z2]; exact t4) (by rw [z2]; exact hT.2.2.1)]
  by_cases hneg : k < 0
  · have ho' : o = .lt := c2.2 hneg
    subst ho'
    have := advanceLoop_spec hW a2 (step := fun s => prev s) (at_ := fun m => pos (i - m)) k.natAbs (i := 0) (f := f) (n := z) (v := 0)
      (fun m hm => by
        have := hb.prev (i - (0 + m) - 1) (by omega)
        rw [show i - (0 + m) - 1 + 1 = i - (0 + m) by omega] at this
        rw [this, show i - (0 + m) - 1 = i - (0 + m + 1) by omega])
      (by rw [Int.zero_add, Int.natCast_natAbs]) hf z3 (by rw [z2]; exact t4) (by rw [z2]; exact hT.2.2.1) (by rw [z2]; exact hT.2.2.2)
    simp only [Nat.sub_zero, Nat.zero_add] at this
    rw [show i - k.natAbs = j by omega] at this
    exact this
  · have ho' : o ≠ .lt := fun e => hneg (c2.1 e)
    have := advanceLoop_spec hW a2 (step := fun s => next s) (at_ := pos) k.natAbs (i := i) (f := f) (n := z) (v := 0)
      (fun m hm => hb.next _ (by omega))
      (by rw [Int.zero_add, Int.natCast_natAbs]) hf z3 (by rw [z2]; exact t4) (by rw [z2]; exact hT.2.2.1) (by rw [z2]; exact hT.2.2.2)
    rw [show i + k.natAbs = j by omega] at this
    rw [← this]
    congr 1
    funext s
    show (if o ≠ .lt then next s else prev s) = _
    rw [if_pos ho']

/-- **C94**: `next(it)` is the following position, `prev(it)` the preceding one, and `prev(it, offset)` goes back by the offset. -/
theorem C94_next_prev (hW : 64 ≤ W) {D : Bounded.Rng} (hD : D.Wf W) (h0 : D.lo ≤ 0) (hlt : D.lo < D.hi) (hs : Small W D)
    {next prev : σ → Res σ} {pos : Nat → σ} {len : Nat} (hb : BothWays next prev pos len) (hlen : (len : Int) ≤ D.hi) :
    (∀ i, i < len → nextOf W D next prev 2 (pos i) = some (.ok (pos (i + 1)))) ∧
    (∀ i, i < len → prevOf W D next prev 2 (pos (i + 1)) = some (.ok (pos i))) ∧
    ∀ (offset : BInt) (k : Nat) (i f : Nat), Holds W offset k → Small W offset.rng → i + k ≤ len → k < f →
      prevBy W D next prev offset f (pos (i + k)) = some (.ok (pos i)) := by
  have pq := pow_quarter hW
  have h1 := Bounded.constB_holds hW (Bounded.rep_one hW)
  have s1 : Small W (constB 1).rng := by unfold Small; simp only [constB]; omega
  have hback : ∀ (offset : BInt) (k : Nat) (i f : Nat), Holds W offset k → Small W offset.rng → i + k ≤ len → k < f →
      prevBy W D next prev offset f (pos (i + k)) = some (.ok (pos i)) := by
    intro offset k i f ho hso hi hf
    cases hr : Bounded.negTy W offset.rng with
    | none => exact absurd (by unfold neg; rw [hr]; rfl) (abs_compiles hW ho hso).2
    | some r =>
      obtain ⟨c, c1, c2, c3, c4, c5⟩ := Bounded.neg_value hW ho.1 hr ho.2
      simp only [prevBy, c1, andThenO]
      refine C94_advance hW hD h0 hlt hs hb hlen (offset := c) (k := -(k : Int)) ⟨by rw [c2]; exact c5, c3⟩ ?_ hi (by omega) (by omega) (by omega)
      rw [c2, c4]
      unfold Small at hso ⊢
      simp only
      omega
  refine ⟨fun i hi => ?_, fun i hi => ?_, hback⟩
  · exact C94_advance hW hD h0 hlt hs hb hlen h1 s1 (by omega) (by omega) (by omega) (by omega)
  · exact hback (constB 1) 1 i 2 (by simpa using h1) s1 (by omega) (by omega)

/-- **C94**: `mutable_iterator` refers to the element that the given iterator refers to. -/
theorem C94_mutable_iterator {r : RA σ ρ} {pos : Nat → σ} {xs : List ρ} (h : Indexed r pos xs) {cpos : Nat → τ} {minus : τ → σ → Res Int}
    (hm : ∀ i j, i ≤ xs.length → j ≤ xs.length → minus (cpos i) (pos j) = .ok ((i : Int) - j)) {i : Nat} (hi : i ≤ xs.length) :
    mutableIterator r minus (pos 0) (cpos i) = .ok (pos i) := by
  have h1 := hm i 0 hi (by omega)
  have h2 := h.add 0 i (by omega) hi
  simp only [mutableIterator, h1]
  exact h2

/-! ## Examples -/

/-- A list of three elements with positions `0..3`. -/
def exNext (s : Nat) : Res Nat := if s < 3 then .ok (s + 1) else .ub
/-- The way back. -/
def exPrev (s : Nat) : Res Nat := if 0 < s then .ok (s - 1) else .ub

example : BothWays exNext exPrev id 3 :=
  ⟨fun i hi => by simp only [exNext, id, hi, if_true], fun i hi => by simp [exPrev]⟩

/-- From position 3 back by 2; the counter has the type `integer<-5, 5>`. -/
example : advanceBidi 128 ⟨-5, 5⟩ exNext exPrev ⟨⟨-2, -2⟩, -2⟩ 3 3 = some (.ok 1) := by decide +kernel
example : nextOf 128 ⟨-5, 5⟩ exNext exPrev 2 1 = some (.ok 2) ∧ prevOf 128 ⟨-5, 5⟩ exNext exPrev 2 3 = some (.ok 2) := by decide +kernel

/-- A range of three elements whose difference type can hold three, or only two. -/
def exThree : Range Nat Nat := ⟨⟨fun s => .ok (decide (s = 3)), fun s => .ok (s * s), fun s => .ok (s + 1)⟩, 0, none⟩

example : exThree.Is [0, 1, 4] := ⟨⟨rfl, rfl, 1, rfl, rfl, rfl, 2, rfl, rfl, rfl, 3, rfl, rfl⟩, fun n hn => by cases hn⟩
example : distance 128 ⟨-3, 3⟩ exThree.ops 4 0 = some (.ok ⟨⟨-3, 3⟩, 3⟩) ∧ distance 128 ⟨-2, 2⟩ exThree.ops 4 0 = some .ub := by decide +kernel
example : linearSize 128 (defaultSize ⟨-3, 3⟩) ⟨-3, 3⟩ exThree 4 = some (.ok ⟨⟨0, 3⟩, 3⟩) ∧ isEmpty ⟨0, 3⟩ exThree = .ok false ∧
    countIfB 128 ⟨-3, 3⟩ exThree (fun x => x % 2 = 0) 4 = some (.ok ⟨⟨0, 3⟩, 2⟩) := by decide +kernel

/-- Nothing to count, but the code is rejected. -/
example : countIfB 128 ⟨0, 0⟩ (⟨⟨fun _ => .ok true, fun _ => .ub, fun _ => .ub⟩, 0, none⟩ : Range Nat Nat) (fun _ => true) 1 = none := by
  decide +kernel

end Verif.Views
