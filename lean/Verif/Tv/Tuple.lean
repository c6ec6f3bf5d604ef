import Verif.Base.Res

/-!
# `tv::tuple`: comparison, concatenation, transformation (property C24)

The elements of a tuple may have different types; here a tuple is a list over one type
that is the union of them, and comparing two elements is a parameter.
-/

namespace Verif.Tv

open Verif

variable {α β : Type}

/-- source/tv/tuple.cpp 135-141: `(... or ((cmp = lhs[i] <=> rhs[i]), cmp != 0))`. The
number of element comparisons that are made is returned, too. -/
def tupleCompareLoop (c : α → α → Ordering) : List (α × α) → Ordering → Nat → Ordering × Nat
  | [], cmp, n => (cmp, n)
  | (a, b) :: rest, _, n =>
    let cmp := c a b
    if cmp ≠ .eq then (cmp, n + 1) else tupleCompareLoop c rest cmp (n + 1)

/-- source/tv/tuple.cpp 135-141 `operator<=>`. Both tuples have the same number of
elements (otherwise it does not compile). -/
def tupleCompare (c : α → α → Ordering) (x y : List α) : Ordering × Nat :=
  tupleCompareLoop c (x.zip y) .eq 0

/-- source/tv/tuple.cpp 143-147 `operator==`, with the number of comparisons made. -/
def tupleEqLoop (e : α → α → Bool) : List (α × α) → Nat → Bool × Nat
  | [], n => (true, n)
  | (a, b) :: rest, n => if e a b then tupleEqLoop e rest (n + 1) else (false, n + 1)

/-- source/tv/tuple.cpp 143-147 `operator==`. -/
def tupleEq (e : α → α → Bool) (x y : List α) : Bool × Nat := tupleEqLoop e (x.zip y) 0

theorem tupleCompareLoop_spec (c : α → α → Ordering) : ∀ (l : List (α × α)) (n : Nat),
    (∀ o, o ≠ .eq → ((tupleCompareLoop c l .eq n).1 = o ↔
      ∃ k, ∃ h : k < l.length, c l[k].1 l[k].2 = o ∧ ∀ j, (hj : j < k) → c l[j].1 l[j].2 = .eq)) ∧
    ((tupleCompareLoop c l .eq n).1 = .eq ↔ ∀ p ∈ l, c p.1 p.2 = .eq) := by
  intro l
  induction l with
  | nil =>
    intro n
    refine ⟨fun o ho => ⟨fun h => absurd h.symm ho, ?_⟩, by simp [tupleCompareLoop]⟩
    rintro ⟨k, hk, _⟩
    simp at hk
  | cons p l ih =>
    intro n
    obtain ⟨a, b⟩ := p
    obtain ⟨ih1, ih2⟩ := ih (n + 1)
    simp only [tupleCompareLoop]
    by_cases hc : c a b = .eq
    · simp only [hc, ne_eq, not_true_eq_false, if_false]
      refine ⟨fun o ho => ?_, ?_⟩
      · rw [ih1 o ho]
        constructor
        · rintro ⟨k, hk, h1, h2⟩
          refine ⟨k + 1, by simp; omega, by simpa using h1, fun j hj => ?_⟩
          cases j with
          | zero => simpa using hc
          | succ j => simpa using h2 j (by omega)
        · rintro ⟨k, hk, h1, h2⟩
          cases k with
          | zero => simp [hc] at h1; exact absurd h1.symm ho
          | succ k =>
            refine ⟨k, by simpa using hk, by simpa using h1, fun j hj => ?_⟩
            simpa using h2 (j + 1) (by omega)
      · rw [ih2]; simp [hc]
    · simp only [ne_eq, hc, not_false_eq_true, if_true]
      refine ⟨fun o ho => ?_, ?_⟩
      · constructor
        · intro h; exact ⟨0, by simp, by simpa using h, fun j hj => absurd hj (by omega)⟩
        · rintro ⟨k, hk, h1, h2⟩
          cases k with
          | zero => simpa using h1
          | succ k => exact absurd (by simpa using h2 0 (by omega)) hc
      · constructor
        · intro h; first | exact absurd h hc | exact h.elim
        · intro h; exact absurd (h (a, b) (by simp)) hc

/-- C24: `x <=> y` is lexicographic: it is `o` (less or greater) exactly if there is a
first position at which the elements differ and they compare `o` there, and equal exactly
if all elements compare equal. -/
theorem C24_compare_lexicographic (c : α → α → Ordering) (x y : List α) (hl : x.length = y.length) :
    (∀ o, o ≠ .eq → ((tupleCompare c x y).1 = o ↔
      ∃ k, ∃ h : k < x.length, c x[k] (y[k]'(hl ▸ h)) = o ∧
        ∀ j, (hj : j < k) → c (x[j]'(by omega)) (y[j]'(by omega)) = .eq)) ∧
    ((tupleCompare c x y).1 = .eq ↔ ∀ k, (h : k < x.length) → c x[k] (y[k]'(hl ▸ h)) = .eq) := by
  obtain ⟨h1, h2⟩ := tupleCompareLoop_spec c (x.zip y) 0
  refine ⟨fun o ho => ?_, ?_⟩
  · unfold tupleCompare
    rw [h1 o ho]
    simp only [List.getElem_zip, List.length_zip]
    constructor
    · rintro ⟨k, hk, h3, h4⟩; exact ⟨k, by omega, h3, h4⟩
    · rintro ⟨k, hk, h3, h4⟩; exact ⟨k, by omega, h3, h4⟩
  · unfold tupleCompare
    rw [h2]
    constructor
    · intro h k hk
      have hz : k < (x.zip y).length := by simp; omega
      have := h (x.zip y)[k] (List.getElem_mem hz)
      simpa using this
    · intro h p hp
      obtain ⟨k, hk, rfl⟩ := List.getElem_of_mem hp
      simp only [List.length_zip] at hk
      simpa using h k (by omega)

theorem tupleEqLoop_spec (e : α → α → Bool) : ∀ (l : List (α × α)) (n : Nat),
    (tupleEqLoop e l n).1 = true ↔ ∀ p ∈ l, e p.1 p.2 = true := by
  intro l
  induction l with
  | nil => intro n; simp [tupleEqLoop]
  | cons p l ih =>
    intro n
    obtain ⟨a, b⟩ := p
    simp only [tupleEqLoop]
    by_cases h : e a b = true
    · simp [h, ih]
    · simp [h]

/-- C24: tuples are equal exactly if all their elements are. -/
theorem C24_equality (e : α → α → Bool) (x y : List α) (hl : x.length = y.length) :
    (tupleEq e x y).1 = true ↔ ∀ k, (h : k < x.length) → e x[k] (y[k]'(hl ▸ h)) = true := by
  unfold tupleEq
  rw [tupleEqLoop_spec]
  constructor
  · intro h k hk
    have hz : k < (x.zip y).length := by simp; omega
    have := h (x.zip y)[k] (List.getElem_mem hz)
    rwa [List.getElem_zip] at this
  · intro h p hp
    obtain ⟨k, hk, rfl⟩ := List.getElem_of_mem hp
    simp only [List.length_zip] at hk
    simpa using h k (by omega)

/-- The number of compared elements of two tuples of the same length: those up to and including the first difference. -/
def compared (differ : α → α → Bool) (x y : List α) : Nat := min x.length (((x.zip y).takeWhile fun p => !differ p.1 p.2).length + 1)

theorem tupleCompareLoop_count (c : α → α → Ordering) : ∀ (l : List (α × α)) (n : Nat),
    (tupleCompareLoop c l .eq n).2 = n + min l.length ((l.takeWhile fun p => !(c p.1 p.2 != .eq)).length + 1) := by
  intro l
  induction l with
  | nil => intro n; simp [tupleCompareLoop]
  | cons p l ih =>
    intro n
    obtain ⟨a, b⟩ := p
    simp only [tupleCompareLoop]
    split
    · rename_i hab
      simp [hab]
    · rename_i hab
      simp only [ne_eq, Decidable.not_not] at hab
      rw [hab, ih]
      simp only [List.takeWhile_cons, hab, bne_self_eq_false, Bool.not_false, if_true, List.length_cons]
      omega

/-- C24: exactly the elements up to and including the first difference are compared. -/
theorem C24_compare_short_circuit (c : α → α → Ordering) (x y : List α) (hl : x.length = y.length) :
    (tupleCompare c x y).2 = compared (fun a b => c a b != .eq) x y := by
  unfold tupleCompare compared
  rw [tupleCompareLoop_count, List.length_zip, ← hl, Nat.min_self, Nat.zero_add]

theorem tupleEqLoop_count (e : α → α → Bool) : ∀ (l : List (α × α)) (n : Nat),
    (tupleEqLoop e l n).2 = n + min l.length ((l.takeWhile fun p => !!e p.1 p.2).length + 1) := by
  intro l
  induction l with
  | nil => intro n; simp [tupleEqLoop]
  | cons p l ih =>
    intro n
    obtain ⟨a, b⟩ := p
    simp only [tupleEqLoop]
    split
    · rename_i hab
      rw [ih]
      simp only [List.takeWhile_cons, hab, Bool.not_true, Bool.not_false, if_true, List.length_cons]
      omega
    · rename_i hab
      simp [hab]

/-- C24: equality compares exactly the elements up to and including the first difference. -/
theorem C24_equality_short_circuit (e : α → α → Bool) (x y : List α) (hl : x.length = y.length) :
    (tupleEq e x y).2 = compared (fun a b => !e a b) x y := by
  unfold tupleEq compared
  rw [tupleEqLoop_count, List.length_zip, ← hl, Nat.min_self, Nat.zero_add]

/-- If position `k` differs and no earlier one does, `k + 1` elements are compared. -/
theorem compared_first {differ : α → α → Bool} {x y : List α} (hl : x.length = y.length) {k : Nat} (h : k < x.length) (hd : differ x[k] (y[k]'(hl ▸ h)) = true)
    (hb : ∀ j, (hj : j < k) → differ (x[j]'(by omega)) (y[j]'(by omega)) = false) : compared differ x y = k + 1 := by
  unfold compared
  have : ((x.zip y).takeWhile fun p => !differ p.1 p.2).length = k := by
    induction k generalizing x y with
    | zero =>
      cases x with
      | nil => simp at h
      | cons a x => cases y with
        | nil => simp at hl
        | cons b y => simp at hd; simp [hd]
    | succ k ih =>
      cases x with
      | nil => simp at h
      | cons a x => cases y with
        | nil => simp at hl
        | cons b y =>
          have h0 := hb 0 (by omega)
          simp only [List.getElem_cons_zero] at h0
          have := ih (x := x) (y := y) (by simpa using hl) (by simpa using h) (by simpa using hd) fun j hj => by simpa using hb (j + 1) (by omega)
          simp [h0, this]
  omega

/-! ## `tuple_cat` -/

/-- source/tv/tuple_cat.cpp 28-36 `add_pack`: writes `(outer, inner)` for every inner index
through the iterator `it` (a position); writing past the end is undefined. -/
def addPack (outer : Nat) : List Nat → Array (Nat × Nat) → Nat → Res (Array (Nat × Nat) × Nat)
  | [], result, it => .ok (result, it)
  | inner :: rest, result, it =>
    if h : it < result.size then addPack outer rest (result.set it (outer, inner)) (it + 1) else .ub

/-- source/tv/tuple_cat.cpp 43: the fold over the sizes. -/
def addPacks : List Nat → Nat → Array (Nat × Nat) → Nat → Res (Array (Nat × Nat) × Nat)
  | [], _, result, it => .ok (result, it)
  | size :: sizes, outer, result, it => do
    let (result, it) ← addPack outer (List.range size) result it
    addPacks sizes (outer + 1) result it

/-- source/tv/tuple_cat.cpp 38-46 `make_indexes`; a failing `BOUNDED_ASSERT` is `ub`. -/
def makeIndexes (sizes : List Nat) : Res (Array (Nat × Nat)) := do
  let (result, it) ← addPacks sizes 0 (Array.replicate (sizes.foldl (· + ·) 0) (0, 0)) 0
  if it = result.size then return result else .ub

/-- Indexing the tuple of tuples; an index out of range does not compile. -/
def pick (tuples : List (List α)) (p : Nat × Nat) : Option α := (tuples[p.1]?).bind fun t => t[p.2]?

/-- source/tv/tuple_cat.cpp 49-62. -/
def tupleCat (tuples : List (List α)) : Res (Option (List α)) := do
  let indexes ← makeIndexes (tuples.map List.length)
  return indexes.toList.mapM (pick tuples)

@[simp] private theorem bind_ok {γ δ : Type} (a : γ) (f : γ → Res δ) : ((Res.ok a : Res γ) >>= f) = f a := rfl

/-- The index pairs written for one tuple. -/
def packOf (outer size : Nat) : List (Nat × Nat) := (List.range size).map fun i => (outer, i)

/-- The index pairs of all tuples, in order. -/
def packsOf : Nat → List Nat → List (Nat × Nat)
  | _, [] => []
  | outer, s :: ss => packOf outer s ++ packsOf (outer + 1) ss

theorem addPack_spec (outer : Nat) : ∀ (l : List Nat) (result : Array (Nat × Nat)) (it : Nat),
    it + l.length ≤ result.size → ∃ r, addPack outer l result it = .ok (r, it + l.length) ∧
      r.toList = result.toList.take it ++ l.map (fun i => (outer, i)) ++ result.toList.drop (it + l.length) := by
  intro l
  induction l with
  | nil => intro result it h; exact ⟨result, rfl, by simp⟩
  | cons x l ih =>
    intro result it h
    simp only [List.length_cons] at h
    have hlt : it < result.size := by omega
    obtain ⟨r, h1, h2⟩ := ih (result.set it (outer, x)) (it + 1) (by simp; omega)
    refine ⟨r, ?_, ?_⟩
    · simp only [addPack, hlt, dif_pos, h1, List.length_cons]
      congr 2; omega
    · rw [h2]
      simp only [Array.toList_set, List.map_cons, List.length_cons]
      have hlt' : it < result.toList.length := by simpa using hlt
      rw [List.take_set, List.drop_set]
      rw [if_pos (by omega)]
      have : (result.toList.take (it + 1)).set it (outer, x) = result.toList.take it ++ [(outer, x)] := by
        rw [List.take_succ_eq_append_getElem hlt']
        rw [List.set_append_right _ _ (by simp; omega)]
        simp [Nat.min_eq_left (Nat.le_of_lt hlt')]
        rw [show it - min it result.size = 0 by omega]
        rfl
      rw [this]
      simp [show it + 1 + l.length = it + (l.length + 1) by omega]

theorem addPacks_spec : ∀ (sizes : List Nat) (outer : Nat) (result : Array (Nat × Nat)) (it : Nat),
    it + sizes.sum ≤ result.size → ∃ r, addPacks sizes outer result it = .ok (r, it + sizes.sum) ∧
      r.toList = result.toList.take it ++ packsOf outer sizes ++ result.toList.drop (it + sizes.sum) := by
  intro sizes
  induction sizes with
  | nil => intro outer result it h; exact ⟨result, rfl, by simp [packsOf]⟩
  | cons s ss ih =>
    intro outer result it h
    simp only [List.sum_cons] at h
    obtain ⟨r, h1, h2⟩ := addPack_spec outer (List.range s) result it (by simp; omega)
    simp only [List.length_range] at h1 h2
    have hsz : r.size = result.size := by
      have := congrArg List.length h2
      simp at this
      omega
    obtain ⟨r', h3, h4⟩ := ih (outer + 1) r (it + s) (by omega)
    refine ⟨r', ?_, ?_⟩
    · simp only [addPacks, h1, bind_ok, h3, List.sum_cons]
      congr 2; omega
    · rw [h4, h2]
      have hlen : (result.toList.take it ++ (List.range s).map fun i => (outer, i)).length = it + s := by
        simp; omega
      rw [List.take_append_of_le_length (by omega), List.take_of_length_le (by omega)]
      rw [List.drop_append, List.drop_of_length_le (by omega), List.drop_drop]
      simp only [packsOf, packOf, List.nil_append, List.sum_cons, hlen]
      rw [show it + s + (it + s + ss.sum - (it + s)) = it + (s + ss.sum) by omega]
      simp [List.append_assoc]

theorem mapM_pick (tuples : List (List α)) : ∀ (pre : List (List α)) (rest : List (List α)), tuples = pre ++ rest →
    (packsOf pre.length (rest.map List.length)).mapM (pick tuples) = some rest.flatten := by
  have hp : ∀ (l : List (Nat × Nat)) (v : List α), l.map (pick tuples) = v.map some → l.mapM (pick tuples) = some v := by
    intro l
    induction l with
    | nil => intro v h; cases v with
      | nil => rfl
      | cons a v => simp at h
    | cons p l ih =>
      intro v h
      cases v with
      | nil => simp at h
      | cons a v =>
        simp only [List.map_cons, List.cons.injEq] at h
        simp [List.mapM_cons, h.1, ih v h.2]
  intro pre rest htup
  apply hp
  induction rest generalizing pre with
  | nil => simp [packsOf]
  | cons t rest ih =>
    simp only [List.map_cons, packsOf, List.map_append, List.flatten_cons]
    congr 1
    · simp only [packOf, List.map_map]
      apply List.ext_getElem (by simp)
      intro k h1 h2
      simp at h1 h2
      simp [pick, htup, h1]
    · have := ih (pre ++ [t]) (by simp [htup])
      simpa using this

/-- C24: `tuple_cat` of any number of tuples of any sizes yields all their elements in
order; all internal writes are in bounds and the assertion holds. -/
theorem C24_tuple_cat (tuples : List (List α)) : tupleCat tuples = .ok (some tuples.flatten) := by
  have hs : ∀ l : List Nat, ∀ n, l.foldl (· + ·) n = n + l.sum := by
    intro l
    induction l with
    | nil => simp
    | cons a l ih => intro n; simp [ih]; omega
  unfold tupleCat makeIndexes
  obtain ⟨r, h1, h2⟩ := addPacks_spec (tuples.map List.length) 0
    (Array.replicate ((tuples.map List.length).foldl (· + ·) 0) (0, 0)) 0 (by simp [hs])
  rw [h1]
  have hlen : ∀ (l : List Nat) o, (packsOf o l).length = l.sum := by
    intro l
    induction l with
    | nil => intro o; rfl
    | cons a l ih => intro o; simp [packsOf, packOf, ih]
  have e : r.toList = packsOf 0 (tuples.map List.length) := by
    rw [h2]; simp [hs]
  have hsz : r.size = (tuples.map List.length).sum := by
    have := congrArg List.length e
    rw [hlen] at this
    simpa using this
  simp only [bind_ok, hsz, Nat.zero_add, if_true, pure_bind]
  rw [e]
  show Res.ok _ = _
  rw [show (0 : Nat) = ([] : List (List α)).length from rfl, mapM_pick tuples [] tuples rfl]

/-- source/tv/transform.cpp 34-42: `function(tuples[index]...)` for every index; `none`
when the sizes differ. -/
def tupleTransform (f : List α → β) (tuples : List (List α)) : Option (List β) :=
  match tuples with
  | [] => some []
  | t :: ts =>
    if ts.all fun u => u.length == t.length then
      (List.range t.length).mapM fun i => ((t :: ts).mapM fun u => u[i]?).map f
    else none

/-- C24: the n-th element of `transform` is the function of the n-th elements. -/
theorem C24_transform (f : List α → β) (t : List α) (ts : List (List α)) (h : ∀ u ∈ ts, u.length = t.length) :
    ∃ r, tupleTransform f (t :: ts) = some r ∧ r.length = t.length ∧
      ∀ k, k < t.length → ∃ args, (t :: ts).map (fun u => u[k]?) = args.map some ∧ r[k]? = some (f args) := by
  have harg : ∀ k, k < t.length → ∃ args, (t :: ts).map (fun u => u[k]?) = args.map some ∧
      (t :: ts).mapM (fun u => u[k]?) = some args := by
    intro k hk
    have : ∀ us : List (List α), (∀ u ∈ us, u.length = t.length) →
        ∃ args, us.map (fun u => u[k]?) = args.map some ∧ us.mapM (fun u => u[k]?) = some args := by
      intro us
      induction us with
      | nil => intro _; exact ⟨[], rfl, rfl⟩
      | cons u us ih =>
        intro hu
        obtain ⟨args, a1, a2⟩ := ih fun v hv => hu v (by simp [hv])
        have hul := hu u (by simp)
        refine ⟨u[k] :: args, by simp [a1, hul, hk], ?_⟩
        simp [List.mapM_cons, a2, hul, hk]
    exact this (t :: ts) (by simpa using h)
  have hall : (ts.all fun u => u.length == t.length) = true := by
    simp only [List.all_eq_true, beq_iff_eq]; exact h
  have key : ∀ l : List Nat, (∀ k ∈ l, k < t.length) →
      ∃ r, (l.mapM fun i => ((t :: ts).mapM fun u => u[i]?).map f) = some r ∧ r.length = l.length ∧
        ∀ j (hj : j < l.length), ∃ args, (t :: ts).map (fun u => u[l[j]]?) = args.map some ∧ r[j]? = some (f args) := by
    intro l
    induction l with
    | nil => intro _; exact ⟨[], rfl, rfl, fun j hj => absurd hj (by simp)⟩
    | cons i l ih =>
      intro hl
      obtain ⟨r, r1, r2, r3⟩ := ih fun k hk => hl k (by simp [hk])
      obtain ⟨args, a1, a2⟩ := harg i (hl i (by simp))
      refine ⟨f args :: r, ?_, by simp [r2], fun j hj => ?_⟩
      · rw [List.mapM_cons, a2, r1]; rfl
      · cases j with
        | zero => exact ⟨args, a1, rfl⟩
        | succ j =>
          obtain ⟨args', b1, b2⟩ := r3 j (by simpa using hj)
          exact ⟨args', by simpa using b1, by simpa using b2⟩
  obtain ⟨r, r1, r2, r3⟩ := key (List.range t.length) (by simp)
  refine ⟨r, by simp only [tupleTransform, hall, if_true]; exact r1, by simpa using r2, fun k hk => ?_⟩
  have := r3 k (by simpa using hk)
  simpa using this

/-- Comparison decided at the second of three positions. -/
example : (tupleCompare compare [1, 5, 9] [1, 7, 2]) = (.lt, 2) := by decide +kernel
/-- The first of three positions at which the tuples differ is the second. -/
example : (tupleEq (fun a b : Nat => a == b) [1, 5, 9] [1, 7, 9]).2 = 2 := by
  rw [C24_equality_short_circuit _ [1, 5, 9] [1, 7, 9] rfl]
  exact compared_first (x := [1, 5, 9]) (y := [1, 7, 9]) (k := 1) rfl (by decide) rfl fun j hj => by
    cases Nat.lt_one_iff.1 hj
    rfl
/-- Three tuples, one of them empty. -/
example : tupleCat [[1, 2], [], [3]] = .ok (some [1, 2, 3]) := C24_tuple_cat _
/-- Two tuples of the same size. -/
example : tupleTransform List.sum [[1, 2], [10, 20]] = some [11, 22] := by decide +kernel

end Verif.Tv
