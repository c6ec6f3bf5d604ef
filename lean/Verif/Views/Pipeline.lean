import Verif.Views.Adapt
import Verif.Views.Adjacent
import Verif.Views.ConcatView
import Verif.Views.Generate
import Verif.Views.Zip
import Verif.Views.Compare

/-!
# Views of views of views

Views are put on top of each other in any order and number. What a view does depends on the range that it is given: `take`, `drop` and
`zip_smallest` have other iterators for random access ranges than for forward ranges or ranges that know nothing but the next element. A pipeline is
built as the code does it, and is compared with what the same functions do to lists.
-/

namespace Verif.Views

open Verif

variable {σ τ ρ π : Type}

/-! ## Model -/

/-- What a pipeline gives: a random access range with its size, a forward range, or a range of which only the next element can be asked for. -/
inductive Built (ρ : Type) : Type 1
  | ra (σ : Type) (r : RA σ ρ) (first : σ) (size : Nat)
  | fwd (σ : Type) (r : Fwd σ ρ) (first : σ)
  | inp (σ : Type) (R : Range σ ρ)

/-- The iterators of a pipeline. -/
def Built.It : Built ρ → Type
  | .ra σ _ _ _ => σ
  | .fwd σ _ _ => σ
  | .inp σ _ => σ

/-- As a range of any kind. -/
def Built.range : (B : Built ρ) → Range B.It ρ
  | .ra _ r first size => ⟨r.toRng, first, some size⟩
  | .fwd _ r first => ⟨r.toRng, first, none⟩
  | .inp _ R => R

/-- An iterator of one of two ranges (the iterators of the ranges that are given to `concatenate_view` and `zip_smallest` may have different types). -/
def Rng.left (r : Rng σ ρ) : Rng (σ ⊕ τ) ρ where
  atEnd s := match s with | .inl s => r.atEnd s | .inr _ => .ub
  deref s := match s with | .inl s => r.deref s | .inr _ => .ub
  next s := match s with | .inl s => (r.next s).bind fun s => .ok (.inl s) | .inr _ => .ub

/-- The operations of a range, for the iterators of the second of two ranges. -/
def Rng.right (r : Rng τ ρ) : Rng (σ ⊕ τ) ρ where
  atEnd s := match s with | .inr s => r.atEnd s | .inl _ => .ub
  deref s := match s with | .inr s => r.deref s | .inl _ => .ub
  next s := match s with | .inr s => (r.next s).bind fun s => .ok (.inr s) | .inl _ => .ub

/-- The first of two ranges. -/
def Range.left (R : Range σ ρ) : Range (σ ⊕ τ) ρ := ⟨R.ops.left, .inl R.first, R.size?⟩

/-- The second of two ranges. -/
def Range.right (R : Range τ ρ) : Range (σ ⊕ τ) ρ := ⟨R.ops.right, .inr R.first, R.size?⟩

/-- `transform` of a range of any kind (`algorithms/transform.cpp` 30-53, 117-123). -/
def Built.map (f : ρ → π) : Built ρ → Built π
  | .ra σ r first size => .ra σ (transform f r) first size
  | .fwd σ r first => .fwd σ { r with deref := fun s => (r.deref s).bind fun x => .ok (f x) } first
  | .inp σ R => .inp σ (R.transform f)

/-- `filter` (`algorithms/filter.cpp` 32-91): the view of a random access range is a forward range. -/
def Built.filter (N : Nat) (q : ρ → Bool) : Built ρ → Res (Built ρ)
  | .ra σ r first _ => (findIfR r.toRng q N first).bind fun s => .ok (.fwd σ (Views.filter N q r.toFwd) s)
  | .fwd σ r first => (findIfR r.toRng q N first).bind fun s => .ok (.fwd σ (Views.filter N q r) s)
  | .inp σ R => (R.filter N q).bind fun R => .ok (.inp σ R)

/-- `counted_iterator` (`take.cpp` 60-145) of a forward range: two of them are compared by their counts (81-83). -/
def countedFwd (r : Fwd σ ρ) : Fwd (σ × Nat) ρ := { counted r.toRng with eq := fun a b => .ok (decide (b.2 = a.2)) }

/-- `take` (`take.cpp` 187-223). -/
def Built.take (D n : Nat) : Built ρ → Res (Built ρ)
  | .ra σ r first size => (takeRA r first size n).bind fun r' => .ok (.ra σ r' first (min size n))
  | .fwd σ r first => .ok (.fwd (σ × Nat) (countedFwd r) (first, min n D))
  | .inp σ R => .ok (.inp (σ × Nat) (R.take D n))

/-- `drop` and `drop_exactly` (`algorithms/drop.cpp` 160-223). -/
def Built.drop (throws : Bool) (n : Nat) : Built ρ → Res (Built ρ)
  | .ra σ r first size => (dropRA throws r first size n).bind fun q => .ok (.ra σ q.1 q.2 (size - n))
  | .fwd σ r first => (dropLoop throws r.toRng n first).bind fun s => .ok (.fwd σ r s)
  | .inp σ R => (R.drop throws n).bind fun R => .ok (.inp σ R)

/-- `drop_back_exactly` (`algorithms/drop_back.cpp` 31-43): for ranges with a size only. -/
def Built.dropBackExactly (D n : Nat) : Built ρ → Option (Res (Built ρ))
  | .ra σ r first size => some ((dropBackExactlyRA r first size n).bind fun r' => .ok (.ra σ r' first (size - n)))
  | .fwd _ _ _ => none
  | .inp σ R => R.size?.map fun size => (R.dropBackExactly D size n).bind fun R => .ok (.inp (σ × Nat) R)

/-- `reversed` (`algorithms/reverse_iterator.cpp` 33-112), here for random access ranges only. The iterators start at the end. -/
def Built.reversed : Built ρ → Option (Res (Built ρ))
  | .ra σ r first size => some ((r.add first size).bind fun last => .ok (.ra σ (Views.reversed r first) last size))
  | _ => none

/-- `adjacent<k>` (`algorithms/adjacent.cpp` 57-172), for forward ranges. -/
def Built.adjacent (k : Nat) : Built ρ → Option (Res (Built (List ρ)))
  | .ra σ r first size => some ((adjacentBegin r.toRng k first).bind fun its => .ok (.ra (List σ) (Views.adjacent r) its (adjacentSize size k)))
  | .fwd σ r first => some ((adjacentBegin r.toRng k first).bind fun its => .ok (.fwd (List σ) (adjacentFwd r) its))
  | .inp _ _ => none

/-- `concatenate_view` of two ranges (`algorithms/concatenate_view.cpp` 123-281); simplification: the result is used as a range of which only the next element is asked for. -/
def Built.concat (A B : Built ρ) : Built ρ := .inp _ (Range.concatenateView [A.range.left (τ := B.It), B.range.right])

/-- `zip_smallest` of two ranges (`algorithms/zip.cpp` 153-165, 245-258), with the same simplification. Of two random access ranges the longer one is shortened with `take`
first. -/
def Built.zipSmallest (A B : Built ρ) : Res (Built (List ρ)) :=
  match A, B with
  | .ra σ r first size, .ra τ q start count =>
    (takeRA r first size (min size count)).bind fun r' => (takeRA q start count (min size count)).bind fun q' =>
      .ok (.inp (List (Rng (σ ⊕ τ) ρ × (σ ⊕ τ))) ⟨zipSized, [(r'.toRng.left, .inl first), (q'.toRng.right, .inr start)], some (min size count)⟩)
  | A, B => .ok (.inp _ (zipSmallestUnsized [A.range.left (τ := B.It), B.range.right]))

/-- A pipeline: the elements of a container, `indexed_generate_n`, and views of pipelines. -/
inductive Pipe : Type → Type 1
  | elements {ρ : Type} (xs : List ρ) : Pipe ρ
  | indexed {ρ : Type} (most n : Nat) (f : Nat → ρ) : Pipe ρ
  | map {ρ π : Type} (f : ρ → π) (p : Pipe ρ) : Pipe π
  | filter {ρ : Type} (q : ρ → Bool) (p : Pipe ρ) : Pipe ρ
  | take {ρ : Type} (n : Nat) (p : Pipe ρ) : Pipe ρ
  | drop {ρ : Type} (n : Nat) (p : Pipe ρ) : Pipe ρ
  | dropExactly {ρ : Type} (n : Nat) (p : Pipe ρ) : Pipe ρ
  | dropBackExactly {ρ : Type} (n : Nat) (p : Pipe ρ) : Pipe ρ
  | reversed {ρ : Type} (p : Pipe ρ) : Pipe ρ
  | adjacent {ρ : Type} (k : Nat) (p : Pipe ρ) : Pipe (List ρ)
  | concat {ρ : Type} (p q : Pipe ρ) : Pipe ρ
  | zipSmallest {ρ : Type} (p q : Pipe ρ) : Pipe (List ρ)

/-- Doing something with a view if it could be constructed. -/
def thenV (x : Option (Res (Built ρ))) (f : Built ρ → Option (Res (Built π))) : Option (Res (Built π)) :=
  match x with
  | none => none
  | some .ub => some .ub
  | some .exn => some .exn
  | some (.ok B) => f B

/-- The construction of a pipeline. `D` is the greatest difference of iterators. `none`: the pipeline does not compile or is not modelled. -/
def Pipe.build (D : Nat) : {ρ : Type} → Pipe ρ → Option (Res (Built ρ))
  | _, .elements xs => some (.ok (.ra Nat (memRange (fun i => xs[i]?) 0 xs.length) 0 xs.length))
  | _, .indexed most n f => some (.ok (.ra Nat (indexedGenerate most n f) 0 n))
  | _, .map f p => thenV (p.build D) fun B => some (.ok (B.map f))
  | _, .filter q p => thenV (p.build D) fun B => some (B.filter (D + 1) q)
  | _, .take n p => thenV (p.build D) fun B => some (B.take D n)
  | _, .drop n p => thenV (p.build D) fun B => some (B.drop false n)
  | _, .dropExactly n p => thenV (p.build D) fun B => some (B.drop true n)
  | _, .dropBackExactly n p => thenV (p.build D) fun B => B.dropBackExactly D n
  | _, .reversed p => thenV (p.build D) fun B => B.reversed
  | _, .adjacent k p => thenV (p.build D) fun B => if k = 0 then none else B.adjacent k
  | _, .concat p q => thenV (p.build D) fun A => thenV (q.build D) fun B => some (.ok (A.concat B))
  | _, .zipSmallest p q => thenV (p.build D) fun A => thenV (q.build D) fun B => some (A.zipSmallest B)

/-! ## Specification -/

/-- The same functions on lists; `none` if an exact number of elements is to be removed that are not there. -/
def Pipe.denote : {ρ : Type} → Pipe ρ → Option (List ρ)
  | _, .elements xs => some xs
  | _, .indexed _ n f => some ((List.range n).map f)
  | _, .map f p => p.denote.map (List.map f)
  | _, .filter q p => p.denote.map (List.filter q)
  | _, .take n p => p.denote.map (List.take n)
  | _, .drop n p => p.denote.map (List.drop n)
  | _, .dropExactly n p => p.denote.bind fun xs => if n ≤ xs.length then some (xs.drop n) else none
  | _, .dropBackExactly n p => p.denote.bind fun xs => if n ≤ xs.length then some (xs.take (xs.length - n)) else none
  | _, .reversed p => p.denote.map List.reverse
  | _, .adjacent k p => p.denote.map (windows k)
  | _, .concat p q => p.denote.bind fun xs => q.denote.map fun ys => xs ++ ys
  | _, .zipSmallest p q => p.denote.bind fun xs => q.denote.map fun ys => List.zipWith (fun x y => [x, y]) xs ys

/-- No range on the way has more elements than the greatest difference, `indexed_generate_n` is given a number of its size type, and
groups are not empty. -/
def Pipe.Fits (D : Nat) : {ρ : Type} → Pipe ρ → Prop
  | _, .elements xs => xs.length ≤ D
  | _, .indexed most n _ => n ≤ most ∧ n ≤ D
  | _, .map _ p => p.Fits D
  | _, .filter _ p => p.Fits D
  | _, .take _ p => p.Fits D
  | _, .drop _ p => p.Fits D
  | _, .dropExactly _ p => p.Fits D
  | _, .dropBackExactly _ p => p.Fits D
  | _, .reversed p => p.Fits D
  | _, .adjacent k p => k ≠ 0 ∧ p.Fits D
  | _, .concat p q => p.Fits D ∧ q.Fits D ∧ ∀ xs ys, p.denote = some xs → q.denote = some ys → xs.length + ys.length ≤ D
  | _, .zipSmallest p q => p.Fits D ∧ q.Fits D

/-- The view has these elements, and its iterators are those of its kind. -/
def Built.Is : Built ρ → List ρ → Prop
  | .ra _ r first size, xs => size = xs.length ∧ ∃ pos, first = pos 0 ∧ Indexed r pos xs
  | .fwd _ r first, xs => ∃ pos, first = pos 0 ∧ Positions r pos xs
  | .inp _ R, xs => R.Is xs

/-! ## Each view -/

theorem Built.Is.range {B : Built ρ} {xs : List ρ} (h : B.Is xs) : B.range.Is xs := by
  cases B with
  | ra σ r first size =>
    obtain ⟨hs, pos, rfl, h⟩ := h
    exact ⟨h.visits, fun n hn => by cases hn; exact hs⟩
  | fwd σ r first =>
    obtain ⟨pos, rfl, h⟩ := h
    exact ⟨h.visits, fun n hn => by cases hn⟩
  | inp σ R => exact h

theorem visits_left {r : Rng σ ρ} : ∀ {xs : List ρ} {s : σ}, Visits r s xs → Visits (r.left (τ := τ)) (.inl s) xs
  | [], _, h => h
  | _ :: _, _, ⟨h1, h2, s', h3, h4⟩ => ⟨h1, h2, .inl s', by simp only [Rng.left, h3]; rfl, visits_left h4⟩

theorem visits_right {r : Rng τ ρ} : ∀ {xs : List ρ} {s : τ}, Visits r s xs → Visits (r.right (σ := σ)) (.inr s) xs
  | [], _, h => h
  | _ :: _, _, ⟨h1, h2, s', h3, h4⟩ => ⟨h1, h2, .inr s', by simp only [Rng.right, h3]; rfl, visits_right h4⟩

theorem Range.Is.left {R : Range σ ρ} {xs : List ρ} (h : R.Is xs) : (R.left (τ := τ)).Is xs := ⟨visits_left h.1, h.2⟩

theorem Range.Is.right {R : Range τ ρ} {xs : List ρ} (h : R.Is xs) : (R.right (σ := σ)).Is xs := ⟨visits_right h.1, h.2⟩

theorem Built.map_is {B : Built ρ} {xs : List ρ} (h : B.Is xs) (f : ρ → π) : (B.map f).Is (xs.map f) := by
  cases B with
  | ra σ r first size =>
    obtain ⟨hs, pos, rfl, h⟩ := h
    exact ⟨by rw [List.length_map]; exact hs, pos, rfl, C50_transform_random_access h f⟩
  | fwd σ r first =>
    obtain ⟨pos, rfl, h⟩ := h
    refine ⟨pos, rfl, ?_, ?_, ?_, ?_⟩
    · intro i hi; rw [List.length_map] at hi ⊢; exact h.atEnd i hi
    · intro i hi; rw [List.length_map] at hi; simp only [h.deref i hi, Res.bind, List.getElem_map]
    · intro i hi; rw [List.length_map] at hi; exact h.next i hi
    · intro i j hi hj; rw [List.length_map] at hi hj; exact h.eq i j hi hj
  | inp σ R => exact C50_transform h f

theorem Built.filter_is {B : Built ρ} {xs : List ρ} (h : B.Is xs) (q : ρ → Bool) {N : Nat} (hN : xs.length < N) : ∃ B', B.filter N q = .ok B' ∧ B'.Is (xs.filter q) := by
  cases B with
  | ra σ r first size =>
    obtain ⟨hs, pos, rfl, h⟩ := h
    obtain ⟨pos', e, v⟩ := C50_filter_positions h.toPositions q hN
    refine ⟨_, by rw [Built.filter, e]; rfl, ?_⟩
    exact ⟨pos', rfl, v⟩
  | fwd σ r first =>
    obtain ⟨pos, rfl, h⟩ := h
    obtain ⟨pos', e, v⟩ := C50_filter_positions h q hN
    refine ⟨_, by rw [Built.filter, e]; rfl, ?_⟩
    exact ⟨pos', rfl, v⟩
  | inp σ R =>
    obtain ⟨F, e, v⟩ := C50_filter h q hN
    refine ⟨_, by rw [Built.filter, e]; rfl, ?_⟩
    exact v

theorem countedFwd_positions {r : Fwd σ ρ} {pos : Nat → σ} {xs : List ρ} (h : Positions r pos xs) (c : Nat) :
    Positions (countedFwd r) (fun i => (pos i, c - i)) (xs.take c) := by
  have hl : (xs.take c).length = min c xs.length := List.length_take
  constructor
  · intro i hi
    rw [hl] at hi ⊢
    simp only [countedFwd, counted]
    split
    · rw [Res.ok.injEq, eq_comm, decide_eq_true_iff]; omega
    · rw [h.atEnd i (by omega), Res.ok.injEq, decide_eq_decide]; omega
  · intro i hi
    rw [hl] at hi
    simp only [countedFwd, counted, h.deref i (by omega), List.getElem_take]
  · intro i hi
    rw [hl] at hi
    simp only [countedFwd, counted, h.next i (by omega), Res.ok_bind]
    rw [if_neg (by omega), Nat.sub_sub]
  · intro i j hi hj
    rw [hl] at hi hj
    simp only [countedFwd, Res.ok.injEq, decide_eq_decide]; omega

theorem Built.take_is {B : Built ρ} {xs : List ρ} (h : B.Is xs) {D : Nat} (hD : xs.length ≤ D) (n : Nat) : ∃ B', B.take D n = .ok B' ∧ B'.Is (xs.take n) := by
  cases B with
  | ra σ r first size =>
    obtain ⟨rfl, pos, rfl, h⟩ := h
    obtain ⟨r', e, v⟩ := C50_take_random_access h n
    refine ⟨_, by rw [Built.take, e]; rfl, ?_⟩
    exact ⟨by rw [List.length_take, Nat.min_comm], pos, rfl, v⟩
  | fwd σ r first =>
    obtain ⟨pos, rfl, h⟩ := h
    refine ⟨_, rfl, fun i => (pos i, min n D - i), rfl, ?_⟩
    have := countedFwd_positions h (min n D)
    have e : xs.take (min n D) = xs.take n := by
      rcases Nat.le_total n D with hc | hc
      · rw [Nat.min_eq_left hc]
      · rw [Nat.min_eq_right hc, List.take_of_length_le hD, List.take_of_length_le (by omega)]
    rwa [e] at this
  | inp σ R => exact ⟨_, rfl, C50_take h hD n⟩

theorem Built.drop_is {B : Built ρ} {xs : List ρ} (h : B.Is xs) (throws : Bool) (n : Nat) :
    if throws ∧ xs.length < n then B.drop throws n = .exn else ∃ B', B.drop throws n = .ok B' ∧ B'.Is (xs.drop n) := by
  cases B with
  | ra σ r first size =>
    obtain ⟨rfl, pos, rfl, h⟩ := h
    split
    · rename_i hc
      rw [Built.drop, dropRA, if_pos (by simpa using hc)]; rfl
    · rename_i hc
      obtain ⟨r', pos', e, v⟩ := C50_drop_random_access h throws n (fun ht => by by_contra hn; exact hc ⟨ht, by omega⟩)
      refine ⟨_, by rw [Built.drop, e]; rfl, ?_⟩
      exact ⟨by rw [List.length_drop], pos', rfl, v⟩
  | fwd σ r first =>
    obtain ⟨pos, rfl, h⟩ := h
    have key : ∀ (n i : Nat), i ≤ xs.length → dropLoop throws r.toRng n (pos i) = if throws ∧ xs.length < i + n then .exn else .ok (pos (min xs.length (i + n))) := by
      intro n
      induction n with
      | zero => intro i hi; rw [if_neg (by omega), Nat.add_zero, Nat.min_eq_right hi]; rfl
      | succ n ih =>
        intro i hi
        rw [dropLoop, h.atEnd i hi, Res.ok_bind]
        by_cases hi' : i = xs.length
        · subst hi'
          rw [decide_eq_true rfl, if_pos rfl]
          cases throws with
          | true => rw [if_pos rfl, if_pos ⟨rfl, by omega⟩]
          | false => rw [if_neg (by simp), if_neg (by simp), Nat.min_eq_left (by omega)]
        · rw [decide_eq_false hi', if_neg (by simp), h.next i (by omega), Res.ok_bind, ih (i + 1) (by omega)]
          simp only [show i + 1 + n = i + (n + 1) by omega]
    have e := key n 0 (Nat.zero_le _)
    rw [Nat.zero_add] at e
    rw [Built.drop, e]
    split
    · rfl
    · refine ⟨_, rfl, fun k => pos (min xs.length n + k), rfl, ?_⟩
      have := h.suffix (min xs.length n) (by omega)
      have e : xs.drop (min xs.length n) = xs.drop n := by
        rcases Nat.le_total xs.length n with hc | hc
        · rw [Nat.min_eq_left hc, List.drop_length, List.drop_eq_nil_of_le hc]
        · rw [Nat.min_eq_right hc]
      rwa [e] at this
  | inp σ R =>
    cases throws with
    | false =>
      rw [if_neg (by simp)]
      obtain ⟨R', e, v⟩ := C50_drop h n
      refine ⟨_, by rw [Built.drop, e]; rfl, ?_⟩
      exact v
    | true =>
      split
      · rename_i hc
        rw [Built.drop, (C50_drop_exactly h n).2 hc.2]; rfl
      · rename_i hc
        obtain ⟨R', e, v⟩ := (C50_drop_exactly h n).1 (by by_contra hn; exact hc ⟨rfl, by omega⟩)
        refine ⟨_, by rw [Built.drop, e]; rfl, ?_⟩
        exact v

theorem Built.dropBackExactly_is {B : Built ρ} {xs : List ρ} (h : B.Is xs) {D : Nat} (hD : xs.length ≤ D) (n : Nat) {o : Res (Built ρ)} (ho : B.dropBackExactly D n = some o) :
    if n ≤ xs.length then ∃ B', o = .ok B' ∧ B'.Is (xs.take (xs.length - n)) else o = .exn := by
  have hsplit : n ≤ xs.length → xs = xs.take (xs.length - n) ++ xs.drop (xs.length - n) ∧ (xs.drop (xs.length - n)).length = n :=
    fun hn => ⟨(List.take_append_drop _ _).symm, by rw [List.length_drop]; omega⟩
  cases B with
  | ra σ r first size =>
    obtain ⟨rfl, pos, rfl, h⟩ := h
    cases ho
    split
    · rename_i hn
      obtain ⟨r', e, v⟩ := (C50_drop_back_exactly_random_access h n).1 _ _ (hsplit hn).1 (hsplit hn).2
      refine ⟨_, by rw [e]; rfl, ?_⟩
      exact ⟨by rw [List.length_take]; omega, pos, rfl, v⟩
    · rw [(C50_drop_back_exactly_random_access h n).2 (by omega)]; rfl
  | fwd σ r first => cases ho
  | inp σ R =>
    cases hs : R.size? with
    | none => rw [Built.dropBackExactly, hs] at ho; cases ho
    | some size =>
      rw [Built.dropBackExactly, hs] at ho
      cases ho
      dsimp only
      split
      · rename_i hn
        obtain ⟨R', e, v⟩ := (C50_drop_back_exactly h hs hD n).1 _ _ (hsplit hn).1 (hsplit hn).2
        refine ⟨_, by rw [e]; rfl, ?_⟩
        exact v
      · rw [(C50_drop_back_exactly h hs hD n).2 (by omega)]; rfl

theorem Built.reversed_is {B : Built ρ} {xs : List ρ} (h : B.Is xs) {o : Res (Built ρ)} (ho : B.reversed = some o) : ∃ B', o = .ok B' ∧ B'.Is xs.reverse := by
  cases B with
  | ra σ r first size =>
    obtain ⟨rfl, pos, rfl, h⟩ := h
    cases ho
    have e := h.add 0 xs.length (by omega) (by omega)
    rw [Int.ofNat_zero, Int.sub_zero] at e
    refine ⟨_, by rw [e]; rfl, ?_⟩
    exact ⟨by rw [List.length_reverse], fun i => pos (xs.length - i), rfl, C50_reversed h⟩
  | fwd σ r first => cases ho
  | inp σ R => cases ho

theorem Built.adjacent_is {B : Built ρ} {xs : List ρ} (h : B.Is xs) {k : Nat} (hk : k ≠ 0) {o : Res (Built (List ρ))} (ho : B.adjacent k = some o) :
    ∃ B', o = .ok B' ∧ B'.Is (windows k xs) := by
  cases B with
  | ra σ r first size =>
    obtain ⟨rfl, pos, rfl, h⟩ := h
    cases ho
    obtain ⟨pos', e, v⟩ := C50_adjacent_random_access h (Nat.pos_of_ne_zero hk)
    refine ⟨_, by rw [e]; rfl, ?_⟩
    exact ⟨C50_adjacent_size xs (Nat.pos_of_ne_zero hk), pos', rfl, v⟩
  | fwd σ r first =>
    obtain ⟨pos, rfl, h⟩ := h
    cases ho
    obtain ⟨pos', e, v⟩ := C50_adjacent h (Nat.pos_of_ne_zero hk)
    refine ⟨_, by rw [e]; rfl, ?_⟩
    exact ⟨pos', rfl, v⟩
  | inp σ R => cases ho

theorem Built.concat_is {A B : Built ρ} {xs ys : List ρ} (h : A.Is xs) (h' : B.Is ys) : (A.concat B).Is (xs ++ ys) := by
  have := C49_concatenate_view (.cons (h.range.left (τ := B.It)) (.cons (h'.range.right (σ := A.It)) .nil))
  rw [List.flatten_cons, List.flatten_cons, List.flatten_nil, List.append_nil] at this
  exact this

theorem isRows_two (xs ys : List ρ) : IsRows (min xs.length ys.length) [xs, ys] (List.zipWith (fun x y => [x, y]) xs ys) := by
  refine ⟨List.length_zipWith, fun i hi => ?_⟩
  rw [List.length_zipWith] at hi
  simp only [List.getElem_zipWith, List.map_cons, List.map_nil]
  rw [List.getElem?_eq_getElem (by omega), List.getElem?_eq_getElem (by omega)]

theorem Built.zipSmallest_is {A B : Built ρ} {xs ys : List ρ} (h : A.Is xs) (h' : B.Is ys) :
    ∃ Z, A.zipSmallest B = .ok Z ∧ Z.Is (List.zipWith (fun x y => [x, y]) xs ys) := by
  have unsized : ∀ {A B : Built ρ}, A.Is xs → B.Is ys → (zipSmallestUnsized [A.range.left (τ := B.It), B.range.right]).Is (List.zipWith (fun x y => [x, y]) xs ys) := by
    intro A B h h'
    obtain ⟨rows, v, ir⟩ := C50_zip_smallest (n := min xs.length ys.length) (.cons (h.range.left (τ := B.It)) (.cons (h'.range.right (σ := A.It)) .nil))
      (by intro zs hz; simp only [List.mem_cons, List.not_mem_nil, or_false] at hz; rcases hz with rfl | rfl <;> omega)
      (by rcases Nat.le_total xs.length ys.length with hl | hl
          · exact ⟨xs, by simp, by omega⟩
          · exact ⟨ys, by simp, by omega⟩)
    rwa [isRows_unique ir (isRows_two xs ys)] at v
  cases A with
  | ra σ r first size =>
    cases B with
    | ra τ q start count =>
      obtain ⟨rfl, pos, rfl, h⟩ := h
      obtain ⟨rfl, pos', rfl, h'⟩ := h'
      obtain ⟨r', e, v⟩ := C50_take_random_access h (min xs.length ys.length)
      obtain ⟨q', e', v'⟩ := C50_take_random_access h' (min xs.length ys.length)
      refine ⟨_, by rw [Built.zipSmallest, e]; simp only [Res.bind, e']; rfl, ?_⟩
      have hr : IsRows (min xs.length ys.length) [xs.take (min xs.length ys.length), ys.take (min xs.length ys.length)] (List.zipWith (fun x y => [x, y]) xs ys) := by
        refine ⟨(isRows_two xs ys).1, fun i hi => ?_⟩
        rw [(isRows_two xs ys).2 i hi]
        rw [(isRows_two xs ys).1] at hi
        simp only [List.map_cons, List.map_nil, List.getElem?_take_of_lt hi]
      have hz := C50_zip (n := min xs.length ys.length)
        (Rs := [(⟨r'.toRng, pos 0, some (min xs.length ys.length)⟩ : Range σ ρ).left (τ := τ), (⟨q'.toRng, pos' 0, some (min xs.length ys.length)⟩ : Range τ ρ).right])
        (xss := [xs.take (min xs.length ys.length), ys.take (min xs.length ys.length)])
        (.cons ⟨visits_left v.visits, fun n hn => by cases hn; rw [List.length_take]; omega⟩ (.cons ⟨visits_right v'.visits, fun n hn => by cases hn; rw [List.length_take]; omega⟩ .nil))
        (by intro zs hz; simp only [List.mem_cons, List.not_mem_nil, or_false] at hz; rcases hz with rfl | rfl <;> (rw [List.length_take]; omega)) (by simp)
      obtain ⟨Z, rows, ez, vz, ir⟩ := hz
      rw [isRows_unique ir hr] at vz
      have : Z = ⟨zipSized, [(r'.toRng.left, .inl (pos 0)), (q'.toRng.right, .inr (pos' 0))], some (min xs.length ys.length)⟩ := by
        simp only [zip, Range.left, Range.right, List.mapM_cons, List.mapM_nil, Option.pure_def, Option.bind_eq_bind, Option.bind_some, allAreEqual, List.all_cons, beq_self_eq_true,
          List.all_nil, Bool.and_self, Bool.not_true, Bool.false_eq_true, if_false, List.map_cons, List.map_nil, zipSize, Res.ok.injEq] at ez
        exact ez.symm
      subst this
      exact vz
    | fwd τ q start => exact ⟨_, rfl, unsized h h'⟩
    | inp τ Q => exact ⟨_, rfl, unsized h h'⟩
  | fwd σ r first => exact ⟨.inp _ _, rfl, unsized h h'⟩
  | inp σ R => exact ⟨.inp _ _, rfl, unsized h h'⟩

/-! ## Theorems -/

theorem Pipe.denote_length {D : Nat} : {ρ : Type} → (p : Pipe ρ) → p.Fits D → ∀ xs, p.denote = some xs → xs.length ≤ D
  | _, .elements xs, h, ys, e => by cases e; exact h
  | _, .indexed most n f, h, ys, e => by cases e; rw [List.length_map, List.length_range]; exact h.2
  | _, .map f p, h, ys, e => by
    obtain ⟨xs, hx, rfl⟩ := Option.map_eq_some_iff.1 e
    rw [List.length_map]; exact p.denote_length h xs hx
  | _, .filter q p, h, ys, e => by
    obtain ⟨xs, hx, rfl⟩ := Option.map_eq_some_iff.1 e
    exact (List.length_filter_le _ _).trans (p.denote_length h xs hx)
  | _, .take n p, h, ys, e => by
    obtain ⟨xs, hx, rfl⟩ := Option.map_eq_some_iff.1 e
    exact (List.length_take_le' _ _).trans (p.denote_length h xs hx)
  | _, .drop n p, h, ys, e => by
    obtain ⟨xs, hx, rfl⟩ := Option.map_eq_some_iff.1 e
    have := p.denote_length h xs hx
    rw [List.length_drop]; omega
  | _, .dropExactly n p, h, ys, e => by
    obtain ⟨xs, hx, e⟩ := Option.bind_eq_some_iff.1 e
    have := p.denote_length h xs hx
    split at e
    · cases e; rw [List.length_drop]; omega
    · cases e
  | _, .dropBackExactly n p, h, ys, e => by
    obtain ⟨xs, hx, e⟩ := Option.bind_eq_some_iff.1 e
    have := p.denote_length h xs hx
    split at e
    · cases e; rw [List.length_take]; omega
    · cases e
  | _, .reversed p, h, ys, e => by
    obtain ⟨xs, hx, rfl⟩ := Option.map_eq_some_iff.1 e
    rw [List.length_reverse]; exact p.denote_length h xs hx
  | _, .adjacent k p, h, ys, e => by
    obtain ⟨xs, hx, rfl⟩ := Option.map_eq_some_iff.1 e
    have := p.denote_length h.2 xs hx
    have := h.1
    rw [length_windows]
    omega
  | _, .concat p q, h, zs, e => by
    obtain ⟨xs, hx, e⟩ := Option.bind_eq_some_iff.1 e
    obtain ⟨ys, hy, rfl⟩ := Option.map_eq_some_iff.1 e
    rw [List.length_append]; exact h.2.2 xs ys hx hy
  | _, .zipSmallest p q, h, zs, e => by
    obtain ⟨xs, hx, e⟩ := Option.bind_eq_some_iff.1 e
    obtain ⟨ys, hy, rfl⟩ := Option.map_eq_some_iff.1 e
    have := p.denote_length h.1 xs hx
    rw [List.length_zipWith]; omega

/-- What is expected of the construction of a pipeline. -/
def Built.Expected (o : Res (Built ρ)) : Option (List ρ) → Prop
  | some xs => ∃ B, o = .ok B ∧ B.Is xs
  | none => o = .exn

theorem thenV_expected {x : Option (Res (Built ρ))} {f : Built ρ → Option (Res (Built π))} {o : Res (Built π)} (h : thenV x f = some o) {d : Option (List ρ)}
    (hx : ∀ o, x = some o → Built.Expected o d) : (d = none ∧ o = .exn) ∨ ∃ xs B, d = some xs ∧ B.Is xs ∧ f B = some o := by
  cases x with
  | none => cases h
  | some x =>
    have hx := hx x rfl
    cases d with
    | none =>
      rw [Built.Expected] at hx
      subst hx
      cases h
      exact .inl ⟨rfl, rfl⟩
    | some xs =>
      obtain ⟨B, rfl, hB⟩ := hx
      exact .inr ⟨xs, B, rfl, hB, h⟩

/-- A pipeline gives what the same functions give for lists: the view has these elements (and the iterators of its kind work as the positions in the list), and its construction
throws an exception exactly if more elements are to be removed exactly than there are. -/
theorem C102_elements {D : Nat} : {ρ : Type} → (p : Pipe ρ) → p.Fits D → ∀ o, p.build D = some o → Built.Expected o p.denote
  | _, .elements xs, h, o, e => by
    cases e
    refine ⟨_, rfl, rfl, fun i => 0 + i, rfl, ?_⟩
    have := memRange_indexed (m := fun i => xs[i]?) (first := 0) (xs := xs) (fun i hi => by simp)
    rwa [Nat.zero_add] at this
  | _, .indexed most n f, h, o, e => by
    cases e
    exact ⟨_, rfl, by rw [List.length_map, List.length_range], id, rfl, C61_indexed_generate_n h.1 f⟩
  | _, .map f p, h, o, e => by
    rw [Pipe.denote]
    rcases thenV_expected e (C102_elements p h) with ⟨hd, rfl⟩ | ⟨xs, B, hd, hB, e⟩
    · rw [hd]; rfl
    · cases e; rw [hd]; exact ⟨_, rfl, B.map_is hB f⟩
  | _, .filter q p, h, o, e => by
    rw [Pipe.denote]
    rcases thenV_expected e (C102_elements p h) with ⟨hd, rfl⟩ | ⟨xs, B, hd, hB, e⟩
    · rw [hd]; rfl
    · cases e; rw [hd]; exact B.filter_is hB q (by have := p.denote_length h xs hd; omega)
  | _, .take n p, h, o, e => by
    rw [Pipe.denote]
    rcases thenV_expected e (C102_elements p h) with ⟨hd, rfl⟩ | ⟨xs, B, hd, hB, e⟩
    · rw [hd]; rfl
    · cases e; rw [hd]; exact B.take_is hB (p.denote_length h xs hd) n
  | _, .drop n p, h, o, e => by
    rw [Pipe.denote]
    rcases thenV_expected e (C102_elements p h) with ⟨hd, rfl⟩ | ⟨xs, B, hd, hB, e⟩
    · rw [hd]; rfl
    · cases e
      rw [hd]
      have := B.drop_is hB false n
      rwa [if_neg (by simp)] at this
  | _, .dropExactly n p, h, o, e => by
    rw [Pipe.denote]
    rcases thenV_expected e (C102_elements p h) with ⟨hd, rfl⟩ | ⟨xs, B, hd, hB, e⟩
    · rw [hd]; rfl
    · cases e
      rw [hd, Option.bind_some]
      have := B.drop_is hB true n
      by_cases hn : n ≤ xs.length
      · rw [if_pos hn]; rwa [if_neg (by simpa using hn)] at this
      · rw [if_neg hn]; rwa [if_pos (by simpa using hn)] at this
  | _, .dropBackExactly n p, h, o, e => by
    rw [Pipe.denote]
    rcases thenV_expected e (C102_elements p h) with ⟨hd, rfl⟩ | ⟨xs, B, hd, hB, e⟩
    · rw [hd]; rfl
    · rw [hd, Option.bind_some]
      have := B.dropBackExactly_is hB (p.denote_length h xs hd) n e
      by_cases hn : n ≤ xs.length
      · rw [if_pos hn] at this ⊢; exact this
      · rw [if_neg hn] at this ⊢; exact this
  | _, .reversed p, h, o, e => by
    rw [Pipe.denote]
    rcases thenV_expected e (C102_elements p h) with ⟨hd, rfl⟩ | ⟨xs, B, hd, hB, e⟩
    · rw [hd]; rfl
    · rw [hd]; exact B.reversed_is hB e
  | _, .adjacent k p, h, o, e => by
    rw [Pipe.denote]
    rcases thenV_expected e (C102_elements p h.2) with ⟨hd, rfl⟩ | ⟨xs, B, hd, hB, e⟩
    · rw [hd]; rfl
    · rw [if_neg h.1] at e
      rw [hd]; exact B.adjacent_is hB h.1 e
  | _, .concat p q, h, o, e => by
    rw [Pipe.denote]
    rcases thenV_expected e (C102_elements p h.1) with ⟨hd, rfl⟩ | ⟨xs, A, hd, hA, e⟩
    · rw [hd]; rfl
    · rw [hd, Option.bind_some]
      rcases thenV_expected e (C102_elements q h.2.1) with ⟨hd', rfl⟩ | ⟨ys, B, hd', hB, e⟩
      · rw [hd']; rfl
      · cases e; rw [hd']; exact ⟨_, rfl, Built.concat_is hA hB⟩
  | _, .zipSmallest p q, h, o, e => by
    rw [Pipe.denote]
    rcases thenV_expected e (C102_elements p h.1) with ⟨hd, rfl⟩ | ⟨xs, A, hd, hA, e⟩
    · rw [hd]; rfl
    · rw [hd, Option.bind_some]
      rcases thenV_expected e (C102_elements q h.2) with ⟨hd', rfl⟩ | ⟨ys, B, hd', hB, e⟩
      · rw [hd']; rfl
      · cases e; rw [hd']; exact Built.zipSmallest_is hA hB

/-- A loop over a pipeline sees exactly the elements that the list functions give, and ends. -/
theorem C102_loop {D : Nat} {p : Pipe ρ} (h : p.Fits D) {B : Built ρ} (hb : p.build D = some (.ok B)) :
    ∃ xs, p.denote = some xs ∧ forEach B.range.ops (D + 1) B.range.first = some (.ok xs) := by
  have := C102_elements p h _ hb
  cases hd : p.denote with
  | none => rw [hd] at this; cases this
  | some xs =>
    rw [hd] at this
    obtain ⟨B', e, hB⟩ := this
    cases e
    exact ⟨xs, rfl, hB.range.1.forEach (by have := p.denote_length h xs hd; omega)⟩

/-- Comparing two pipelines compares what the list functions give. -/
theorem C102_equal [DecidableEq ρ] {D : Nat} {p q : Pipe ρ} (hp : p.Fits D) (hq : q.Fits D) {A B : Built ρ} (ha : p.build D = some (.ok A)) (hb : q.build D = some (.ok B)) :
    equal A.range B.range (fun x y => decide (x = y)) (D + 1) = some (.ok (decide (p.denote = q.denote))) := by
  have h1 := C102_elements p hp _ ha
  have h2 := C102_elements q hq _ hb
  cases hd : p.denote with
  | none => rw [hd] at h1; cases h1
  | some xs =>
    cases hd' : q.denote with
    | none => rw [hd'] at h2; cases h2
    | some ys =>
      rw [hd] at h1
      rw [hd'] at h2
      obtain ⟨_, e, hA⟩ := h1
      cases e
      obtain ⟨_, e, hB⟩ := h2
      cases e
      rw [C47_equal_eq hA.range hB.range (f := D + 1) (by have := p.denote_length hp xs hd; omega)]
      simp only [Option.some.injEq]

/-! ## Misuse of iterators -/

/-- The operation does not throw, and what it gives satisfies the condition. -/
def Mute {α : Type} (P : α → Prop) : Res α → Prop
  | .ok a => P a
  | .ub => True
  | .exn => False

theorem Mute.bind {α β : Type} {P : α → Prop} {Q : β → Prop} {x : Res α} {f : α → Res β} (h : Mute P x) (hf : ∀ a, P a → Mute Q (f a)) : Mute Q (x.bind f) := by
  cases x with
  | ok a => exact hf a h
  | ub => trivial
  | exn => exact h

theorem Mute.ite {α : Type} {P : α → Prop} {c : Prop} [Decidable c] {x y : Res α} (h : Mute P x) (h' : Mute P y) : Mute P (if c then x else y) := by
  split
  · exact h
  · exact h'

/-- No operation of an iterator that satisfies the condition throws, and the condition is kept. -/
structure MuteRng (P : σ → Prop) (r : Rng σ ρ) : Prop where
  atEnd : ∀ s, P s → Mute (fun _ => True) (r.atEnd s)
  deref : ∀ s, P s → Mute (fun _ => True) (r.deref s)
  next : ∀ s, P s → Mute P (r.next s)

/-- Likewise with equality of iterators. -/
structure MuteFwd (P : σ → Prop) (r : Fwd σ ρ) : Prop extends MuteRng P r.toRng where
  eq : ∀ a b, P a → P b → Mute (fun _ => True) (r.eq a b)

/-- Likewise with random access. -/
structure MuteRA (P : σ → Prop) (r : RA σ ρ) : Prop extends MuteFwd P r.toFwd where
  add : ∀ s d, P s → Mute P (r.add s d)
  sub : ∀ a b, P a → P b → Mute (fun _ => True) (r.sub a b)
  cmp : ∀ a b, P a → P b → Mute (fun _ => True) (r.cmp a b)

/-- The iterators that can be had from `begin()`. -/
inductive Reach (next : σ → Res σ) (add : σ → Int → Res σ) (first : σ) : σ → Prop
  | first : Reach next add first first
  | next {s s' : σ} : Reach next add first s → next s = .ok s' → Reach next add first s'
  | add {s s' : σ} {d : Int} : Reach next add first s → add s d = .ok s' → Reach next add first s'

/-- No operation on any iterator that can be had from the view throws an exception, wherever it has been moved to. -/
def Built.NeverThrows : Built ρ → Prop
  | .ra _ r first _ => ∀ a b, Reach r.next r.add first a → Reach r.next r.add first b →
      r.atEnd a ≠ .exn ∧ r.deref a ≠ .exn ∧ r.next a ≠ .exn ∧ r.eq a b ≠ .exn ∧ (∀ d, r.add a d ≠ .exn) ∧ r.sub a b ≠ .exn ∧ r.cmp a b ≠ .exn
  | .fwd _ r first => ∀ a b, Reach r.next (fun _ _ => .ub) first a → Reach r.next (fun _ _ => .ub) first b →
      r.atEnd a ≠ .exn ∧ r.deref a ≠ .exn ∧ r.next a ≠ .exn ∧ r.eq a b ≠ .exn
  | .inp _ R => ∀ a, Reach R.ops.next (fun _ _ => .ub) R.first a → R.ops.atEnd a ≠ .exn ∧ R.ops.deref a ≠ .exn ∧ R.ops.next a ≠ .exn

/-- There is a condition on iterators that is kept by all operations and under which none throws. -/
def Built.Mutes : Built ρ → Prop
  | .ra _ r first _ => ∃ P, P first ∧ MuteRA P r
  | .fwd _ r first => ∃ P, P first ∧ MuteFwd P r
  | .inp _ R => ∃ P, P R.first ∧ MuteRng P R.ops

theorem MuteRng.findIfR {P : σ → Prop} {r : Rng σ ρ} (h : MuteRng P r) (q : ρ → Bool) : ∀ (N : Nat) (s : σ), P s → Mute P (findIfR r q N s)
  | 0, _, _ => trivial
  | N + 1, s, hs => (h.atEnd s hs).bind fun _ _ => .ite hs ((h.deref s hs).bind fun _ _ => .ite hs ((h.next s hs).bind fun s' hs' => h.findIfR q N s' hs'))

theorem MuteRng.advance {P : σ → Prop} {r : Rng σ ρ} (h : MuteRng P r) : ∀ (n : Nat) (s : σ), P s → Mute P (advance r n s)
  | 0, _, hs => hs
  | n + 1, s, hs => (h.next s hs).bind fun s' hs' => h.advance n s' hs'

theorem Mute.ne {α : Type} {P : α → Prop} {x : Res α} (h : Mute P x) : x ≠ .exn := by
  rintro rfl
  exact h

theorem Mute.of_eq {α : Type} {P : α → Prop} {x : Res α} (h : Mute P x) {a : α} (e : x = .ok a) : P a := by
  subst e
  exact h

theorem Mute.any {α : Type} {P : α → Prop} {x : Res α} (h : Mute P x) : Mute (fun _ => True) x := by
  cases x with
  | ok a => trivial
  | ub => trivial
  | exn => exact h

theorem Reach.of {next : σ → Res σ} {add : σ → Int → Res σ} {first : σ} {P : σ → Prop} (h0 : P first) (hn : ∀ s, P s → Mute P (next s))
    (ha : ∀ s d, P s → Mute P (add s d)) : ∀ {s : σ}, Reach next add first s → P s := by
  intro s h
  induction h with
  | first => exact h0
  | next _ e ih => exact (hn _ ih).of_eq e
  | add _ e ih => exact (ha _ _ ih).of_eq e

theorem Built.Mutes.neverThrows {B : Built ρ} (h : B.Mutes) : B.NeverThrows := by
  cases B with
  | ra σ r first size =>
    obtain ⟨P, h0, h⟩ := h
    intro a b ha hb
    have ha := ha.of h0 h.next h.add
    have hb := hb.of h0 h.next h.add
    exact ⟨(h.atEnd a ha).ne, (h.deref a ha).ne, (h.next a ha).ne, (h.eq a b ha hb).ne, fun d => (h.add a d ha).ne, (h.sub a b ha hb).ne, (h.cmp a b ha hb).ne⟩
  | fwd σ r first =>
    obtain ⟨P, h0, h⟩ := h
    intro a b ha hb
    have ha := Reach.of (add := fun _ _ => .ub) h0 h.next (fun _ _ _ => trivial) ha
    have hb := Reach.of (add := fun _ _ => .ub) h0 h.next (fun _ _ _ => trivial) hb
    exact ⟨(h.atEnd a ha).ne, (h.deref a ha).ne, (h.next a ha).ne, (h.eq a b ha hb).ne⟩
  | inp σ R =>
    obtain ⟨P, h0, h⟩ := h
    intro a ha
    have ha := Reach.of (add := fun _ _ => .ub) h0 h.next (fun _ _ _ => trivial) ha
    exact ⟨(h.atEnd a ha).ne, (h.deref a ha).ne, (h.next a ha).ne⟩

theorem bind_ok {α β : Type _} {x : Res α} {f : α → Res β} {b : β} (h : x.bind f = .ok b) : ∃ a, x = .ok a ∧ f a = .ok b := by
  cases x with
  | ok a => exact ⟨a, rfl, h⟩
  | ub => cases h
  | exn => cases h

theorem Built.Mutes.range {B : Built ρ} (h : B.Mutes) : ∃ P, P B.range.first ∧ MuteRng P B.range.ops := by
  cases B with
  | ra σ r first size => obtain ⟨P, h0, h⟩ := h; exact ⟨P, h0, h.toMuteRng⟩
  | fwd σ r first => obtain ⟨P, h0, h⟩ := h; exact ⟨P, h0, h.toMuteRng⟩
  | inp σ R => exact h

/-- An iterator of one of two ranges. -/
def either (P : σ → Prop) (Q : τ → Prop) : σ ⊕ τ → Prop
  | .inl s => P s
  | .inr s => Q s

theorem MuteRng.left {P : σ → Prop} {Q : τ → Prop} {r : Rng σ ρ} (h : MuteRng P r) : MuteRng (either P Q) r.left where
  atEnd s hs := by cases s with | inl s => exact h.atEnd s hs | inr s => trivial
  deref s hs := by cases s with | inl s => exact h.deref s hs | inr s => trivial
  next s hs := by cases s with | inl s => exact (h.next s hs).bind fun s' hs' => hs' | inr s => trivial

theorem MuteRng.right {P : σ → Prop} {Q : τ → Prop} {r : Rng τ ρ} (h : MuteRng Q r) : MuteRng (either P Q) r.right where
  atEnd s hs := by cases s with | inr s => exact h.atEnd s hs | inl s => trivial
  deref s hs := by cases s with | inr s => exact h.deref s hs | inl s => trivial
  next s hs := by cases s with | inr s => exact (h.next s hs).bind fun s' hs' => hs' | inl s => trivial

theorem mute_memRange (m : Algo.Mem ρ) (first last : Nat) : MuteRA (fun _ => True) (memRange m first last) where
  atEnd _ _ := trivial
  deref s _ := .ite (by cases h : m s <;> trivial) trivial
  next _ _ := .ite trivial trivial
  eq _ _ _ _ := trivial
  add _ _ _ := .ite trivial trivial
  sub _ _ _ _ := trivial
  cmp _ _ _ _ := trivial

theorem mute_indexedGenerate (most n : Nat) (f : Nat → ρ) : MuteRA (fun _ => True) (indexedGenerate most n f) where
  atEnd _ _ := trivial
  deref _ _ := .ite trivial trivial
  next _ _ := .ite trivial trivial
  eq _ _ _ _ := trivial
  add _ _ _ := .ite trivial trivial
  sub _ _ _ _ := trivial
  cmp _ _ _ _ := trivial

theorem MuteFwd.filter {P : σ → Prop} {r : Fwd σ ρ} (h : MuteFwd P r) (N : Nat) (q : ρ → Bool) : MuteFwd P (filter N q r) where
  atEnd := h.atEnd
  deref := h.deref
  next s hs := (h.atEnd s hs).bind fun _ _ => .ite trivial ((h.next s hs).bind fun s' hs' => h.findIfR q N s' hs')
  eq := h.eq

theorem MuteRng.counted {P : σ → Prop} {r : Rng σ ρ} (h : MuteRng P r) : MuteRng (fun s => P s.1) (counted r) where
  atEnd s hs := .ite trivial (h.atEnd _ hs)
  deref s hs := h.deref _ hs
  next s hs := (h.next _ hs).bind fun s' hs' => .ite trivial hs'

theorem MuteRA.until {P : σ → Prop} {r : RA σ ρ} (h : MuteRA P r) {last : σ} (hl : P last) : MuteRA P { r with atEnd := fun s => r.eq s last } where
  atEnd s hs := h.eq s last hs hl
  deref := h.deref
  next := h.next
  eq := h.eq
  add := h.add
  sub := h.sub
  cmp := h.cmp

theorem MuteRA.takeRA {P : σ → Prop} {r : RA σ ρ} (h : MuteRA P r) {first : σ} (h0 : P first) {size n : Nat} {r' : RA σ ρ} (e : takeRA r first size n = .ok r') : MuteRA P r' := by
  obtain ⟨last, el, e⟩ := bind_ok e
  cases e
  exact h.until ((h.add _ _ h0).of_eq el)

theorem MuteRA.reversed {P : σ → Prop} {r : RA σ ρ} (h : MuteRA P r) {first : σ} (h0 : P first) : MuteRA P (reversed r first) where
  atEnd s hs := h.eq first s h0 hs
  deref s hs := (h.add s _ hs).bind fun s' hs' => h.deref s' hs'
  next s hs := h.add s _ hs
  eq a b ha hb := h.eq b a hb ha
  add s d hs := h.add s _ hs
  sub a b ha hb := h.sub b a hb ha
  cmp a b ha hb := h.cmp b a hb ha

theorem mute_mapRes {β γ : Type} {P : β → Prop} {Q : γ → Prop} {f : β → Res γ} (hf : ∀ b, P b → Mute Q (f b)) : ∀ {l : List β}, (∀ b ∈ l, P b) →
    Mute (fun l' => ∀ c ∈ l', Q c) (mapRes f l)
  | [], _ => fun c hc => by cases hc
  | b :: l, h => (hf b (h b (by simp))).bind fun c hc => (mute_mapRes hf fun b hb => h b (by simp [hb])).bind fun l' hl' c' hc' => by
    rcases List.mem_cons.1 hc' with rfl | hc'
    · exact hc
    · exact hl' c' hc'

theorem mute_backOf {P : σ → Prop} {its : List σ} (h : ∀ s ∈ its, P s) : Mute P (backOf its) := by
  rw [backOf]
  split
  · rename_i s e; exact h s (List.mem_of_getLast? e)
  · trivial

theorem MuteRng.adjacentBegin {P : σ → Prop} {r : Rng σ ρ} (h : MuteRng P r) : ∀ (k : Nat) (s : σ), P s → Mute (fun l => ∀ s ∈ l, P s) (adjacentBegin r k s)
  | 0, _, _ => fun c hc => by cases hc
  | k + 1, s, hs => by
    have h1 : Mute P (do if ← r.atEnd s then .ok s else r.next s) := (h.atEnd s hs).bind fun _ _ => .ite hs (h.next s hs)
    refine h1.bind fun s' hs' => (h.adjacentBegin k s' hs').bind fun l hl c hc => ?_
    rcases List.mem_cons.1 hc with rfl | hc
    · exact hs
    · exact hl c hc

theorem MuteFwd.adjacentFwd {P : σ → Prop} {r : Fwd σ ρ} (h : MuteFwd P r) : MuteFwd (fun l => ∀ s ∈ l, P s) (adjacentFwd r) where
  atEnd its hs := (mute_backOf hs).bind fun s hs => h.atEnd s hs
  deref its hs := (mute_mapRes h.deref hs).any
  next its hs := (mute_backOf hs).bind fun s h' => (h.next s h').bind fun s' hs' c hc => by
    rcases List.mem_append.1 hc with hc | hc
    · exact hs c (List.mem_of_mem_tail hc)
    · rcases List.mem_singleton.1 hc with rfl; exact hs'
  eq a b ha hb := (mute_backOf ha).bind fun s hs => (mute_backOf hb).bind fun t ht => h.eq s t hs ht

theorem MuteRA.adjacent {P : σ → Prop} {r : RA σ ρ} (h : MuteRA P r) : MuteRA (fun l => ∀ s ∈ l, P s) (adjacent r) where
  atEnd its hs := h.toMuteFwd.adjacentFwd.atEnd its hs
  deref its hs := h.toMuteFwd.adjacentFwd.deref its hs
  next its hs := h.toMuteFwd.adjacentFwd.next its hs
  eq a b ha hb := h.toMuteFwd.adjacentFwd.eq a b ha hb
  add its d hs := mute_mapRes (fun s hs => h.add s d hs) hs
  sub a b ha hb := (mute_backOf ha).bind fun s hs => (mute_backOf hb).bind fun t ht => h.sub s t hs ht
  cmp a b ha hb := (mute_backOf ha).bind fun s hs => (mute_backOf hb).bind fun t ht => h.cmp s t hs ht

theorem mute_catAtEnd {P : σ → Prop} : ∀ {rs : List (Rng σ ρ)} {ss : List σ}, (∀ r ∈ rs, MuteRng P r) → (∀ s ∈ ss, P s) → Mute (fun _ => True) (catAtEnd rs ss)
  | [], _, _, _ => trivial
  | _ :: _, [], _, _ => trivial
  | r :: rs, s :: ss, hr, hs => ((hr r (by simp)).atEnd s (hs s (by simp))).bind fun _ _ =>
    .ite (mute_catAtEnd (fun r h => hr r (by simp [h])) fun s h => hs s (by simp [h])) trivial

theorem mute_catDeref {P : σ → Prop} : ∀ {rs : List (Rng σ ρ)} {ss : List σ}, (∀ r ∈ rs, MuteRng P r) → (∀ s ∈ ss, P s) → Mute (fun _ => True) (catDeref rs ss)
  | [], _, _, _ => trivial
  | [_], [], _, _ => trivial
  | _ :: _ :: _, [], _, _ => trivial
  | [r], [s], hr, hs => (hr r (by simp)).deref s (hs s (by simp))
  | [r], s :: _ :: _, hr, hs => ((hr r (by simp)).atEnd s (hs s (by simp))).bind fun _ _ => .ite ((hr r (by simp)).deref s (hs s (by simp))) trivial
  | r :: r' :: rs, s :: ss, hr, hs => by
    have ih := mute_catDeref (rs := r' :: rs) (ss := ss) (fun r h => hr r (List.mem_cons_of_mem _ h)) fun s h => hs s (List.mem_cons_of_mem _ h)
    rw [catDeref]
    · exact ((hr r (by simp)).atEnd s (hs s (by simp))).bind fun _ _ => .ite ((hr r (by simp)).deref s (hs s (by simp))) ih
    · intro h; cases h

theorem mute_catNext {P : σ → Prop} : ∀ {rs : List (Rng σ ρ)} {ss : List σ}, (∀ r ∈ rs, MuteRng P r) → (∀ s ∈ ss, P s) → Mute (fun l => ∀ s ∈ l, P s) (catNext rs ss)
  | [], _, _, _ => fun c hc => by cases hc
  | _ :: _, [], _, _ => fun c hc => by cases hc
  | r :: rs, s :: ss, hr, hs => by
    rw [catNext]
    refine ((hr r (by simp)).atEnd s (hs s (by simp))).bind fun _ _ => .ite ?_ ?_
    · refine (mute_catNext (fun r h => hr r (by simp [h])) fun s h => hs s (by simp [h])).bind fun l hl c hc => ?_
      rcases List.mem_cons.1 hc with rfl | hc
      · exact hs _ (by simp)
      · exact hl c hc
    · refine ((hr r (by simp)).next s (hs s (by simp))).bind fun s' hs' c hc => ?_
      rcases List.mem_cons.1 hc with rfl | hc
      · exact hs'
      · exact hs c (by simp [hc])

/-- The iterators of zipped ranges. -/
def ZipMute (P : σ → Prop) (s : List (Rng σ ρ × σ)) : Prop := ∀ b ∈ s, MuteRng P b.1 ∧ P b.2

theorem mute_anyEq {P : σ → Prop} : ∀ {s : List (Rng σ ρ × σ)}, ZipMute P s → Mute (fun _ => True) (anyEq s)
  | [], _ => trivial
  | b :: s, h => ((h b (by simp)).1.atEnd _ (h b (by simp)).2).bind fun _ _ => .ite trivial (mute_anyEq fun b hb => h b (by simp [hb]))

theorem mute_allEq {P : σ → Prop} : ∀ {s : List (Rng σ ρ × σ)}, ZipMute P s → Mute (fun _ => True) (allEq s)
  | [], _ => trivial
  | b :: s, h => ((h b (by simp)).1.atEnd _ (h b (by simp)).2).bind fun _ _ => .ite (mute_allEq fun b hb => h b (by simp [hb])) trivial

theorem mute_zipDeref {P : σ → Prop} {s : List (Rng σ ρ × σ)} (h : ZipMute P s) : Mute (fun _ => True) (zipDeref s) :=
  (mute_mapRes (P := fun b : Rng σ ρ × σ => MuteRng P b.1 ∧ P b.2) (Q := fun _ => True) (fun b hb => hb.1.deref _ hb.2) h).any

theorem mute_zipNext {P : σ → Prop} {s : List (Rng σ ρ × σ)} (h : ZipMute P s) : Mute (ZipMute P) (zipNext s) := by
  have hf : ∀ b : Rng σ ρ × σ, MuteRng P b.1 ∧ P b.2 → Mute (fun b : Rng σ ρ × σ => MuteRng P b.1 ∧ P b.2) (do .ok (b.1, ← b.1.next b.2)) :=
    fun b hb => (hb.1.next _ hb.2).bind fun s' hs' => (⟨hb.1, hs'⟩ : MuteRng P b.1 ∧ P s')
  exact .ite trivial (mute_mapRes hf h)

theorem mute_zipSmallest {P : σ → Prop} : MuteRng (ZipMute (ρ := ρ) P) zipSmallest := ⟨fun _ h => mute_anyEq h, fun _ h => mute_zipDeref h, fun _ h => mute_zipNext h⟩

theorem mute_zipSized {P : σ → Prop} : MuteRng (ZipMute (ρ := ρ) P) zipSized := ⟨fun _ h => mute_allEq h, fun _ h => mute_zipDeref h, fun _ h => mute_zipNext h⟩

theorem MuteRng.dropLoop {P : σ → Prop} {r : Rng σ ρ} (h : MuteRng P r) (throws : Bool) : ∀ (n : Nat) {s s' : σ}, P s → dropLoop throws r n s = .ok s' → P s'
  | 0, _, _, hs, e => by cases e; exact hs
  | n + 1, s, s', hs, e => by
    obtain ⟨b, -, e⟩ := bind_ok e
    cases b with
    | true => cases throws <;> cases e; exact hs
    | false =>
      obtain ⟨s1, e1, e⟩ := bind_ok e
      exact h.dropLoop throws n ((h.next s hs).of_eq e1) e

/-! ### Each view -/

theorem Built.Mutes.map {B : Built ρ} (h : B.Mutes) (f : ρ → π) : (B.map f).Mutes := by
  cases B with
  | ra σ r first size =>
    obtain ⟨P, h0, h⟩ := h
    exact ⟨P, h0, ⟨⟨⟨h.atEnd, fun s hs => (h.deref s hs).bind fun _ _ => trivial, h.next⟩, h.eq⟩, h.add, h.sub, h.cmp⟩⟩
  | fwd σ r first =>
    obtain ⟨P, h0, h⟩ := h
    exact ⟨P, h0, ⟨⟨h.atEnd, fun s hs => (h.deref s hs).bind fun _ _ => trivial, h.next⟩, h.eq⟩⟩
  | inp σ R =>
    obtain ⟨P, h0, h⟩ := h
    exact ⟨P, h0, ⟨h.atEnd, fun s hs => (h.deref s hs).bind fun _ _ => trivial, h.next⟩⟩

theorem Built.Mutes.filter {B B' : Built ρ} (h : B.Mutes) {N : Nat} {q : ρ → Bool} (e : B.filter N q = .ok B') : B'.Mutes := by
  cases B with
  | ra σ r first size =>
    obtain ⟨P, h0, h⟩ := h
    obtain ⟨s, es, e⟩ := bind_ok e
    cases e
    exact ⟨P, (h.findIfR q N _ h0).of_eq es, h.toMuteFwd.filter N q⟩
  | fwd σ r first =>
    obtain ⟨P, h0, h⟩ := h
    obtain ⟨s, es, e⟩ := bind_ok e
    cases e
    exact ⟨P, (h.findIfR q N _ h0).of_eq es, h.filter N q⟩
  | inp σ R =>
    obtain ⟨P, h0, h⟩ := h
    obtain ⟨R', eR, e⟩ := bind_ok e
    cases e
    obtain ⟨s, es, e⟩ := bind_ok eR
    cases e
    exact ⟨P, (h.findIfR q N _ h0).of_eq es, ⟨h.atEnd, h.deref, fun s hs => (h.atEnd s hs).bind fun _ _ => .ite trivial ((h.next s hs).bind fun s' hs' => h.findIfR q N s' hs')⟩⟩

theorem Built.Mutes.take {B B' : Built ρ} (h : B.Mutes) {D n : Nat} (e : B.take D n = .ok B') : B'.Mutes := by
  cases B with
  | ra σ r first size =>
    obtain ⟨P, h0, h⟩ := h
    obtain ⟨r', er, e⟩ := bind_ok e
    cases e
    exact ⟨P, h0, h.takeRA h0 er⟩
  | fwd σ r first =>
    obtain ⟨P, h0, h⟩ := h
    cases e
    exact ⟨fun s => P s.1, h0, ⟨h.toMuteRng.counted, fun _ _ _ _ => trivial⟩⟩
  | inp σ R =>
    obtain ⟨P, h0, h⟩ := h
    cases e
    exact ⟨fun s => P s.1, h0, h.counted⟩

theorem Built.Mutes.drop {B B' : Built ρ} (h : B.Mutes) {throws : Bool} {n : Nat} (e : B.drop throws n = .ok B') : B'.Mutes := by
  cases B with
  | ra σ r first size =>
    obtain ⟨P, h0, h⟩ := h
    obtain ⟨⟨r', first'⟩, er, e⟩ := bind_ok e
    cases e
    rw [dropRA] at er
    split at er
    · cases er
    · obtain ⟨first1, e1, er⟩ := bind_ok er
      obtain ⟨last, e2, er⟩ := bind_ok er
      cases er
      have h1 := (h.add _ _ h0).of_eq e1
      exact ⟨P, h1, h.until ((h.add _ _ h1).of_eq e2)⟩
  | fwd σ r first =>
    obtain ⟨P, h0, h⟩ := h
    obtain ⟨s, es, e⟩ := bind_ok e
    cases e
    exact ⟨P, h.toMuteRng.dropLoop throws n h0 es, h⟩
  | inp σ R =>
    obtain ⟨P, h0, h⟩ := h
    obtain ⟨R', eR, e⟩ := bind_ok e
    cases e
    rw [Range.drop] at eR
    split at eR
    · split at eR
      · cases eR
      · obtain ⟨s, es, eR⟩ := bind_ok eR
        cases eR
        exact ⟨P, (h.advance _ _ h0).of_eq es, h⟩
    · obtain ⟨s, es, eR⟩ := bind_ok eR
      cases eR
      exact ⟨P, h.dropLoop throws n h0 es, h⟩

theorem Built.Mutes.dropBackExactly {B B' : Built ρ} (h : B.Mutes) {D n : Nat} (e : B.dropBackExactly D n = some (.ok B')) : B'.Mutes := by
  cases B with
  | ra σ r first size =>
    obtain ⟨P, h0, h⟩ := h
    obtain ⟨r', er, e⟩ := bind_ok (Option.some.inj e)
    cases e
    rw [dropBackExactlyRA] at er
    split at er
    · cases er
    · exact ⟨P, h0, h.takeRA h0 er⟩
  | fwd σ r first => cases e
  | inp σ R =>
    obtain ⟨P, h0, h⟩ := h
    obtain ⟨size, -, e⟩ := Option.map_eq_some_iff.1 e
    obtain ⟨R', eR, e⟩ := bind_ok e
    cases e
    rw [Range.dropBackExactly] at eR
    split at eR
    · cases eR
    · cases eR
      exact ⟨fun s => P s.1, h0, h.counted⟩

theorem Built.Mutes.reversed {B B' : Built ρ} (h : B.Mutes) (e : B.reversed = some (.ok B')) : B'.Mutes := by
  cases B with
  | ra σ r first size =>
    obtain ⟨P, h0, h⟩ := h
    obtain ⟨last, el, e⟩ := bind_ok (Option.some.inj e)
    cases e
    exact ⟨P, (h.add _ _ h0).of_eq el, h.reversed h0⟩
  | fwd σ r first => cases e
  | inp σ R => cases e

theorem Built.Mutes.adjacent {B : Built ρ} {B' : Built (List ρ)} (h : B.Mutes) {k : Nat} (e : B.adjacent k = some (.ok B')) : B'.Mutes := by
  cases B with
  | ra σ r first size =>
    obtain ⟨P, h0, h⟩ := h
    obtain ⟨its, ei, e⟩ := bind_ok (Option.some.inj e)
    cases e
    exact ⟨_, (h.toMuteRng.adjacentBegin k _ h0).of_eq ei, h.adjacent⟩
  | fwd σ r first =>
    obtain ⟨P, h0, h⟩ := h
    obtain ⟨its, ei, e⟩ := bind_ok (Option.some.inj e)
    cases e
    exact ⟨_, (h.toMuteRng.adjacentBegin k _ h0).of_eq ei, h.adjacentFwd⟩
  | inp σ R => cases e

theorem Built.Mutes.concat {A B : Built ρ} (h : A.Mutes) (h' : B.Mutes) : (A.concat B).Mutes := by
  obtain ⟨P, h0, h⟩ := h.range
  obtain ⟨Q, h0', h'⟩ := h'.range
  have hr : ∀ r ∈ [A.range.ops.left (τ := B.It), B.range.ops.right], MuteRng (either P Q) r := by
    intro r hr
    simp only [List.mem_cons, List.not_mem_nil, or_false] at hr
    rcases hr with rfl | rfl
    · exact h.left
    · exact h'.right
  refine ⟨fun l => ∀ s ∈ l, either P Q s, ?_, ⟨fun s hs => mute_catAtEnd hr hs, fun s hs => mute_catDeref hr hs, fun s hs => mute_catNext hr hs⟩⟩
  intro s hs
  simp only [Range.concatenateView, List.map_cons, List.map_nil, List.mem_cons, List.not_mem_nil, or_false] at hs
  rcases hs with rfl | rfl
  · exact h0
  · exact h0'

theorem zipMute_two {P : σ → Prop} {Q : τ → Prop} {r : Rng σ ρ} {q : Rng τ ρ} (h : MuteRng P r) (h' : MuteRng Q q) {s : σ} {t : τ} (hs : P s) (ht : Q t) :
    ZipMute (either P Q) [(r.left, .inl s), (q.right, .inr t)] := by
  intro b hb
  simp only [List.mem_cons, List.not_mem_nil, or_false] at hb
  rcases hb with rfl | rfl
  · exact ⟨h.left, hs⟩
  · exact ⟨h'.right, ht⟩

theorem Built.Mutes.zipSmallest {A B : Built ρ} {Z : Built (List ρ)} (h : A.Mutes) (h' : B.Mutes) (e : A.zipSmallest B = .ok Z) : Z.Mutes := by
  have unsized : ∀ {A B : Built ρ}, A.Mutes → B.Mutes → (Built.inp _ (zipSmallestUnsized [A.range.left (τ := B.It), B.range.right])).Mutes := by
    intro A B h h'
    obtain ⟨P, h0, h⟩ := h.range
    obtain ⟨Q, h0', h'⟩ := h'.range
    exact ⟨ZipMute (either P Q), zipMute_two h h' h0 h0', mute_zipSmallest⟩
  cases A with
  | ra σ r first size =>
    cases B with
    | ra τ q start count =>
      obtain ⟨P, h0, h⟩ := h
      obtain ⟨Q, h0', h'⟩ := h'
      obtain ⟨r', er, e⟩ := bind_ok e
      obtain ⟨q', eq, e⟩ := bind_ok e
      cases e
      exact ⟨ZipMute (either P Q), zipMute_two (h.takeRA h0 er).toMuteRng (h'.takeRA h0' eq).toMuteRng h0 h0', mute_zipSized⟩
    | fwd τ q start => cases e; exact unsized h h'
    | inp τ Q => cases e; exact unsized h h'
  | fwd σ r first => cases e; exact unsized h h'
  | inp σ R => cases e; exact unsized h h'

theorem thenV_ok {x : Option (Res (Built ρ))} {f : Built ρ → Option (Res (Built π))} {B' : Built π} (h : thenV x f = some (.ok B')) : ∃ B, x = some (.ok B) ∧ f B = some (.ok B') := by
  cases x with
  | none => cases h
  | some x =>
    cases x with
    | ok B => exact ⟨B, rfl, h⟩
    | ub => cases h
    | exn => cases h

theorem Pipe.mutes {D : Nat} : {ρ : Type} → (p : Pipe ρ) → ∀ {B}, p.build D = some (.ok B) → B.Mutes
  | _, .elements xs, _, e => by cases e; exact ⟨_, trivial, mute_memRange _ _ _⟩
  | _, .indexed most n f, _, e => by cases e; exact ⟨_, trivial, mute_indexedGenerate _ _ _⟩
  | _, .map f p, _, e => by obtain ⟨B, eB, e⟩ := thenV_ok e; cases e; exact (p.mutes eB).map f
  | _, .filter q p, _, e => by obtain ⟨B, eB, e⟩ := thenV_ok e; exact (p.mutes eB).filter (Option.some.inj e)
  | _, .take n p, _, e => by obtain ⟨B, eB, e⟩ := thenV_ok e; exact (p.mutes eB).take (Option.some.inj e)
  | _, .drop n p, _, e => by obtain ⟨B, eB, e⟩ := thenV_ok e; exact (p.mutes eB).drop (Option.some.inj e)
  | _, .dropExactly n p, _, e => by obtain ⟨B, eB, e⟩ := thenV_ok e; exact (p.mutes eB).drop (Option.some.inj e)
  | _, .dropBackExactly n p, _, e => by obtain ⟨B, eB, e⟩ := thenV_ok e; exact (p.mutes eB).dropBackExactly e
  | _, .reversed p, _, e => by obtain ⟨B, eB, e⟩ := thenV_ok e; exact (p.mutes eB).reversed e
  | _, .adjacent k p, _, e => by
    obtain ⟨B, eB, e⟩ := thenV_ok e
    split at e
    · cases e
    · exact (p.mutes eB).adjacent e
  | _, .concat p q, _, e => by
    obtain ⟨A, eA, e⟩ := thenV_ok e
    obtain ⟨B, eB, e⟩ := thenV_ok e
    cases e
    exact (p.mutes eA).concat (q.mutes eB)
  | _, .zipSmallest p q, _, e => by
    obtain ⟨A, eA, e⟩ := thenV_ok e
    obtain ⟨B, eB, e⟩ := thenV_ok e
    exact (p.mutes eA).zipSmallest (q.mutes eB) (Option.some.inj e)

/-- Once a pipeline is built, nothing that is done with its iterators throws an exception, not even if they leave the range. -/
theorem C102_never_throws {D : Nat} (p : Pipe ρ) {B : Built ρ} (h : p.build D = some (.ok B)) : B.NeverThrows := (p.mutes h).neverThrows

/-! ## Which pipelines there are -/

/-- What kind of range. -/
inductive Kind
  | randomAccess
  | forward
  | input (sized : Bool)
deriving DecidableEq

/-- The kind of a range. -/
def Built.kind : Built ρ → Kind
  | .ra _ _ _ _ => .randomAccess
  | .fwd _ _ _ => .forward
  | .inp _ R => .input R.size?.isSome

/-- What can be said about the kind of a pipeline from its type; `none` if it does not compile or is not modelled. -/
def Pipe.kind : {ρ : Type} → Pipe ρ → Option Kind
  | _, .elements _ => some .randomAccess
  | _, .indexed _ _ _ => some .randomAccess
  | _, .map _ p => p.kind
  | _, .filter _ p => p.kind.map fun k => match k with | .input _ => .input false | _ => .forward
  | _, .take _ p => p.kind.map fun k => match k with | .input _ => .input false | k => k
  | _, .drop _ p => p.kind
  | _, .dropExactly _ p => p.kind
  | _, .dropBackExactly _ p => p.kind.bind fun k => match k with | .randomAccess => some .randomAccess | .forward => none | .input s => if s then some (.input false) else none
  | _, .reversed p => p.kind.bind fun k => match k with | .randomAccess => some .randomAccess | _ => none
  | _, .adjacent k p => if k = 0 then none else p.kind.bind fun k => match k with | .input _ => none | k => some k
  | _, .concat p q => p.kind.bind fun k => q.kind.map fun l => .input (k ≠ .forward ∧ k ≠ .input false ∧ l ≠ .forward ∧ l ≠ .input false)
  | _, .zipSmallest p q => p.kind.bind fun k => q.kind.map fun l => .input (k = .randomAccess ∧ l = .randomAccess)

theorem Built.kind_filter {B : Built ρ} {N : Nat} {q : ρ → Bool} {B' : Built ρ} (e : B.filter N q = .ok B') :
    B'.kind = match B.kind with | .input _ => .input false | _ => .forward := by
  cases B with
  | ra σ r first size => obtain ⟨s, -, e⟩ := bind_ok e; cases e; rfl
  | fwd σ r first => obtain ⟨s, -, e⟩ := bind_ok e; cases e; rfl
  | inp σ R =>
    obtain ⟨R', eR, e⟩ := bind_ok e
    cases e
    obtain ⟨s, -, e⟩ := bind_ok eR
    cases e
    rfl

theorem Built.kind_drop {B : Built ρ} {throws : Bool} {n : Nat} {B' : Built ρ} (e : B.drop throws n = .ok B') : B'.kind = B.kind := by
  cases B with
  | ra σ r first size => obtain ⟨s, -, e⟩ := bind_ok e; cases e; rfl
  | fwd σ r first => obtain ⟨s, -, e⟩ := bind_ok e; cases e; rfl
  | inp σ R =>
    obtain ⟨R', eR, e⟩ := bind_ok e
    cases e
    rw [Built.kind, Built.kind]
    rw [Range.drop] at eR
    split at eR
    · rename_i hs
      split at eR
      · cases eR
      · obtain ⟨s, -, eR⟩ := bind_ok eR
        cases eR
        rw [hs]; rfl
    · rename_i hs
      obtain ⟨s, -, eR⟩ := bind_ok eR
      cases eR
      rw [hs]

theorem thenV_kind {x : Option (Res (Built ρ))} {f : Built ρ → Option (Res (Built π))} {k : Kind} {k' : Kind} (hx : ∃ o, x = some o ∧ ∀ B, o = .ok B → B.kind = k)
    (hf : ∀ B, B.kind = k → ∃ o, f B = some o ∧ ∀ B', o = .ok B' → B'.kind = k') : ∃ o, thenV x f = some o ∧ ∀ B', o = .ok B' → B'.kind = k' := by
  obtain ⟨o, rfl, ho⟩ := hx
  cases o with
  | ok B => exact hf B (ho B rfl)
  | ub => exact ⟨_, rfl, fun _ h => by cases h⟩
  | exn => exact ⟨_, rfl, fun _ h => by cases h⟩

/-- A pipeline of which the types fit can be built, and is of that kind: what is filtered can no longer be accessed at random, what is shortened can, and so on. -/
theorem C102_kind {D : Nat} : {ρ : Type} → (p : Pipe ρ) → ∀ k, p.kind = some k → ∃ o, p.build D = some o ∧ ∀ B, o = .ok B → B.kind = k
  | _, .elements xs, k, e => by cases e; exact ⟨_, rfl, fun B h => by cases h; rfl⟩
  | _, .indexed most n f, k, e => by cases e; exact ⟨_, rfl, fun B h => by cases h; rfl⟩
  | _, .map f p, k, e => thenV_kind (C102_kind p k e) fun B hB => ⟨_, rfl, fun B' h => by cases h; cases B <;> exact hB⟩
  | _, .filter q p, k, e => by
    obtain ⟨k', ek, rfl⟩ := Option.map_eq_some_iff.1 e
    exact thenV_kind (C102_kind p k' ek) fun B hB => ⟨_, rfl, fun B' h => by rw [Built.kind_filter h, hB]⟩
  | _, .take n p, k, e => by
    obtain ⟨k', ek, rfl⟩ := Option.map_eq_some_iff.1 e
    refine thenV_kind (C102_kind p k' ek) fun B hB => ⟨_, rfl, fun B' h => ?_⟩
    cases B with
    | ra σ r first size => obtain ⟨s, -, e⟩ := bind_ok h; cases e; cases hB; rfl
    | fwd σ r first => cases h; cases hB; rfl
    | inp σ R => cases h; cases hB; rfl
  | _, .drop n p, k, e => thenV_kind (C102_kind p k e) fun B hB => ⟨_, rfl, fun B' h => (Built.kind_drop h).trans hB⟩
  | _, .dropExactly n p, k, e => thenV_kind (C102_kind p k e) fun B hB => ⟨_, rfl, fun B' h => (Built.kind_drop h).trans hB⟩
  | _, .dropBackExactly n p, k, e => by
    obtain ⟨k', ek, e⟩ := Option.bind_eq_some_iff.1 e
    refine thenV_kind (C102_kind p k' ek) fun B hB => ?_
    cases B with
    | ra σ r first size => cases hB; cases e; exact ⟨_, rfl, fun B' h => by obtain ⟨s, -, e⟩ := bind_ok h; cases e; rfl⟩
    | fwd σ r first => cases hB; cases e
    | inp σ R =>
      cases hB
      cases hs : R.size? with
      | none => rw [Built.kind, hs] at e; cases e
      | some n' =>
        rw [Built.kind, hs] at e
        cases e
        refine ⟨_, by rw [Built.dropBackExactly, hs]; rfl, fun B' h => ?_⟩
        obtain ⟨R', eR, h⟩ := bind_ok h
        cases h
        rw [Range.dropBackExactly] at eR
        split at eR
        · cases eR
        · cases eR; rfl
  | _, .reversed p, k, e => by
    obtain ⟨k', ek, e⟩ := Option.bind_eq_some_iff.1 e
    refine thenV_kind (C102_kind p k' ek) fun B hB => ?_
    cases B with
    | ra σ r first size => cases hB; cases e; exact ⟨_, rfl, fun B' h => by obtain ⟨s, -, e⟩ := bind_ok h; cases e; rfl⟩
    | fwd σ r first => cases hB; cases e
    | inp σ R => cases hB; cases e
  | _, .adjacent n p, k, e => by
    rw [Pipe.kind] at e
    split at e
    · cases e
    · rename_i hn
      obtain ⟨k', ek, e⟩ := Option.bind_eq_some_iff.1 e
      refine thenV_kind (C102_kind p k' ek) fun B hB => ?_
      rw [if_neg hn]
      cases B with
      | ra σ r first size => cases hB; cases e; exact ⟨_, rfl, fun B' h => by obtain ⟨s, -, e⟩ := bind_ok h; cases e; rfl⟩
      | fwd σ r first => cases hB; cases e; exact ⟨_, rfl, fun B' h => by obtain ⟨s, -, e⟩ := bind_ok h; cases e; rfl⟩
      | inp σ R => cases hB; cases e
  | ρ, .concat p q, k, e => by
    obtain ⟨k', ek, e⟩ := Option.bind_eq_some_iff.1 e
    obtain ⟨l', el, rfl⟩ := Option.map_eq_some_iff.1 e
    refine thenV_kind (C102_kind p k' ek) fun A hA => thenV_kind (C102_kind q l' el) fun B hB => ⟨_, rfl, fun B' h => ?_⟩
    cases h
    subst hA hB
    have key : ∀ A : Built ρ, A.range.size?.isSome = decide (A.kind ≠ .forward ∧ A.kind ≠ .input false) := by
      intro A
      cases A with
      | ra σ r first size => rfl
      | fwd σ r first => rfl
      | inp σ R => cases hs : R.size? <;> simp [Built.range, Built.kind, hs]
    have hsz : (Range.concatenateView [A.range.left (τ := B.It), B.range.right]).size?.isSome = (A.range.size?.isSome && B.range.size?.isSome) := by
      simp only [Range.concatenateView, List.all_cons, List.all_nil, Bool.and_true]
      by_cases hc : ((A.range.left (τ := B.It)).size?.isSome && (B.range.right (σ := A.It)).size?.isSome) = true
      · rw [if_pos hc]; exact hc.symm
      · rw [if_neg hc]; exact (Bool.eq_false_iff.2 hc).symm
    rw [Built.concat, Built.kind, hsz, key, key, ← Bool.decide_and]
    congr 2
    simp only [and_assoc]
  | _, .zipSmallest p q, k, e => by
    obtain ⟨k', ek, e⟩ := Option.bind_eq_some_iff.1 e
    obtain ⟨l', el, rfl⟩ := Option.map_eq_some_iff.1 e
    refine thenV_kind (C102_kind p k' ek) fun A hA => thenV_kind (C102_kind q l' el) fun B hB => ⟨_, rfl, fun B' h => ?_⟩
    cases A with
    | ra σ r first size =>
      cases B with
      | ra τ q start count =>
        obtain ⟨r', -, h⟩ := bind_ok h
        obtain ⟨q', -, h⟩ := bind_ok h
        cases h; cases hA; cases hB; rfl
      | fwd τ q start => cases h; cases hA; cases hB; rfl
      | inp τ Q => cases h; cases hA; cases hB; rfl
    | fwd σ r first => cases h; cases hA; rfl
    | inp σ R => cases h; cases hA; rfl

/-! ### Examples -/

/-- The sums of neighbours of the numbers from one to five, from the last one on, but only those that are more than five. -/
def samplePipe : Pipe Nat := .filter (fun x => decide (5 < x)) (.reversed (.map List.sum (.adjacent 2 (.elements [1, 2, 3, 4, 5]))))

/-- The hypotheses hold, and the view has the expected elements. -/
example : samplePipe.Fits 5 ∧ samplePipe.kind = some .forward ∧ samplePipe.denote = some [9, 7] := ⟨by simp [samplePipe, Pipe.Fits], rfl, by decide +kernel⟩

example : ∃ B, samplePipe.build 5 = some (.ok B) ∧ forEach B.range.ops 6 B.range.first = some (.ok [9, 7]) ∧ B.NeverThrows := by
  obtain ⟨o, e, -⟩ := C102_kind (D := 5) samplePipe _ rfl
  obtain ⟨B, rfl, hB⟩ := C102_elements samplePipe (by simp [samplePipe, Pipe.Fits]) _ e
  exact ⟨B, e, hB.range.1.forEach (by decide +kernel), C102_never_throws _ e⟩

/-- Removing exactly more elements than there are throws. -/
example : (Pipe.dropExactly 3 (.zipSmallest (.elements [1, 2, 3]) (.take 2 (.concat (.elements [4]) (.drop 1 (.elements [5, 6])))))).denote = none ∧
    (Pipe.dropExactly 3 (.zipSmallest (.elements [1, 2, 3]) (.take 2 (.concat (.elements [4]) (.drop 1 (.elements [5, 6])))))).build 3 = some .exn := by
  refine ⟨by decide +kernel, ?_⟩
  obtain ⟨o, e, -⟩ := C102_kind (D := 3) (Pipe.dropExactly 3 (.zipSmallest (.elements [1, 2, 3]) (.take 2 (.concat (.elements [4]) (.drop 1 (.elements [5, 6])))))) _ rfl
  have := C102_elements _ (by simp [Pipe.Fits, Pipe.denote]) _ e
  rw [show Pipe.denote _ = none by decide +kernel] at this
  rw [e, this]

end Verif.Views
