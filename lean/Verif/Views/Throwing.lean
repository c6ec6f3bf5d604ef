import Verif.Views.Adjacent
import Verif.Views.Join

/-!
# Views whose functions throw (C116)

The functions that are given to views may throw, at calls that depend on anything. Iterators are values here and `it + 1` makes a new iterator, as in the code
(the operators take their operand by value), so an iterator whose increment throws is still there. `it++` and `++it` come from the library `operators`, which is
not part of the repository; loops are written with `it = it + 1`.
-/

namespace Verif.Views.Calling

universe u v

variable {τ σ σ' ρ π A B : Type}

/-! ## Model -/

/-- How something that calls functions ends. `τ` is the state that the functions have and that an exception does not undo. -/
inductive Ended (τ : Type) (X : Type u) where
  | ok (x : X) (t : τ)
  | exn (t : τ)
  | ub

/-- Something that calls functions. -/
def Act (τ : Type) (X : Type u) := τ → Ended τ X

/-- A value. -/
def Act.pure {X : Type u} (x : X) : Act τ X := fun t => .ok x t

/-- Undefined behaviour. -/
def Act.ub {X : Type u} : Act τ X := fun _ => .ub

/-- One after the other; an exception skips the second. -/
def Act.bind {X : Type u} {Y : Type v} (a : Act τ X) (g : X → Act τ Y) : Act τ Y := fun t =>
  match a t with
  | .ok x t => g x t
  | .exn t => .exn t
  | .ub => .ub

instance : Monad (Act τ) where
  pure := Act.pure
  bind := Act.bind

/-- A function that throws or gives a value that depends on the arguments only. -/
structure Fn (τ A B : Type) where
  run : A → τ → Option B × τ
  value : A → B
  agrees : ∀ a t b, (run a t).1 = some b → b = value a

/-- A call. -/
def Fn.call (f : Fn τ A B) (a : A) : Act τ B := fun t =>
  match f.run a t with
  | (some b, t) => .ok b t
  | (none, t) => .exn t

/-- The operations of an iterator, see `Rng`. -/
structure RngC (τ σ ρ : Type) where
  atEnd : σ → Act τ Bool
  deref : σ → Act τ ρ
  next : σ → Act τ σ

/-- The elements of a container; iterators are the numbers of elements behind them. -/
def elementsC (xs : List ρ) : RngC τ Nat ρ where
  atEnd i := pure (decide (i = xs.length))
  deref i := match xs[i]? with | some x => pure x | none => .ub
  next i := if i < xs.length then pure (i + 1) else .ub

/-- `transform` (`algorithms/transform.cpp` 30-53, 117-123): the function is called each time an iterator is dereferenced. -/
def mapC (f : Fn τ ρ π) (r : RngC τ σ ρ) : RngC τ σ π := { r with deref := fun s => do f.call (← r.deref s) }

/-- `find_if` (`algorithms/find.cpp` 26-34), see `findIfR`. -/
def findIfC (r : RngC τ σ ρ) (p : Fn τ ρ Bool) : Nat → σ → Act τ σ
  | 0, _ => .ub
  | f + 1, s => do
    if ← r.atEnd s then pure s else
    if ← p.call (← r.deref s) then pure s else
    findIfC r p f (← r.next s)

/-- `filter_iterator_traits` (`algorithms/filter.cpp` 41-49). -/
def filterC (N : Nat) (p : Fn τ ρ Bool) (r : RngC τ σ ρ) : RngC τ σ ρ := { r with
  next := fun s => do
    if ← r.atEnd s then .ub else
    findIfC r p N (← r.next s) }

/-- `counted_iterator` (`take.cpp` 78-80, 86-99, 110-119), see `counted`. -/
def takeC (r : RngC τ σ ρ) : RngC τ (σ × Nat) ρ where
  atEnd s := if s.2 = 0 then pure true else r.atEnd s.1
  deref s := r.deref s.1
  next s := do
    let it ← r.next s.1
    if s.2 = 0 then .ub else pure (it, s.2 - 1)

/-- The loop of `drop` (`algorithms/drop.cpp` 192-202), see `dropLoop`. -/
def dropLoopC (r : RngC τ σ ρ) : Nat → σ → Act τ σ
  | 0, s => pure s
  | n + 1, s => do
    if ← r.atEnd s then pure s else
    dropLoopC r n (← r.next s)

/-- `concatenate_view` of two ranges (`algorithms/concatenate_view.cpp` 109-149, 196-213), see `concatView`. -/
def concatC (a : RngC τ σ ρ) (b : RngC τ σ' ρ) : RngC τ (σ × σ') ρ where
  atEnd s := do if ← a.atEnd s.1 then b.atEnd s.2 else pure false
  deref s := do if ← a.atEnd s.1 then b.deref s.2 else a.deref s.1
  next s := do
    if ← a.atEnd s.1 then do
      if ← b.atEnd s.2 then pure s else do
        let s2 ← b.next s.2
        pure (s.1, s2)
    else do
      let s1 ← a.next s.1
      pure (s1, s.2)

/-- `zip_smallest` of two ranges (`algorithms/zip.cpp` 65-76, 118-122), see `zipSmallest`. Simplification: the iterators are dereferenced and advanced from left to
right; the language leaves the order open. -/
def zipC (a : RngC τ σ ρ) (b : RngC τ σ' π) : RngC τ (σ × σ') (ρ × π) where
  atEnd s := do if ← a.atEnd s.1 then pure true else b.atEnd s.2
  deref s := do
    let x ← a.deref s.1
    let y ← b.deref s.2
    pure (x, y)
  next s := do
    let s1 ← a.next s.1
    let s2 ← b.next s.2
    pure (s1, s2)

/-- The constructor of `adjacent_iterator` (`algorithms/adjacent.cpp` 63-74), see `adjacentBegin`. -/
def adjacentBeginC (r : RngC τ σ ρ) : Nat → σ → Act τ (List σ)
  | 0, _ => pure []
  | k + 1, s => do
    let s' ← (do if ← r.atEnd s then pure s else r.next s)
    let rest ← adjacentBeginC r k s'
    pure (s :: rest)

/-- Dereferencing several iterators (`algorithms/adjacent.cpp` 75-78); from left to right here. -/
def derefAllC (r : RngC τ σ ρ) : List σ → Act τ (List ρ)
  | [] => pure []
  | s :: ss => do
    let x ← r.deref s
    let xs ← derefAllC r ss
    pure (x :: xs)

/-- `containers::back(m_its)`. -/
def backC (its : List σ) : Act τ σ :=
  match its.getLast? with
  | some s => pure s
  | none => .ub

/-- `adjacent_iterator` (`algorithms/adjacent.cpp` 75-98, 119-122), see `adjacentFwd`. -/
def adjacentC (r : RngC τ σ ρ) : RngC τ (List σ) (List ρ) where
  atEnd its := do r.atEnd (← backC its)
  deref its := derefAllC r its
  next its := do
    let s ← r.next (← backC its)
    pure (its.tail ++ [s])

/-- `m_inner` of `join_with_iterator` (`algorithms/join_with.cpp` 87-115, 194), for inner ranges that are references to containers: the iterator into the inner range
or into the joiner. Simplification: an iterator is given by the elements from it on. -/
inductive JoinInC (ρ : Type) where
  | inner (rest : List ρ)
  | joiner (rest : List ρ)

/-- `normalize` with `do_normalize` (`algorithms/join_with.cpp` 196-226), see `joinNormalize`. -/
def joinNormalizeC (O : RngC τ σ (List ρ)) (js : List ρ) : Nat → σ → JoinInC ρ → Act τ (σ × JoinInC ρ)
  | 0, _, _ => .ub
  | f + 1, t, i => do
    if ← O.atEnd t then pure (t, i) else
      match i with
      | .inner (_ :: _) => pure (t, i)
      | .inner [] => do
        let t ← O.next t
        joinNormalizeC O js f t (.joiner js)
      | .joiner (_ :: _) => pure (t, i)
      | .joiner [] => do
        let r ← O.deref t
        joinNormalizeC O js f t (.inner r)

/-- `join_with_iterator` (`algorithms/join_with.cpp` 167-191), see `joinWith`. -/
def joinC (O : RngC τ σ (List ρ)) (js : List ρ) (N : Nat) : RngC τ (σ × JoinInC ρ) ρ where
  atEnd s := O.atEnd s.1
  deref s :=
    match s.2 with
    | .inner (x :: _) => pure x
    | .joiner (x :: _) => pure x
    | _ => .ub
  next s :=
    match s.2 with
    | .inner (_ :: xs) => joinNormalizeC O js N s.1 (.inner xs)
    | .joiner (_ :: xs) => joinNormalizeC O js N s.1 (.joiner xs)
    | _ => .ub

/-- The function that `find_from_first` gives to `find_if` (`algorithms/chunk_by.cpp` 74-76), see `breaks`. A group has two elements, others are not looked at. -/
def breaksFn (q : Fn τ (ρ × ρ) Bool) : Fn τ (List ρ) Bool where
  run l t :=
    match l with
    | [a, b] => ((q.run (a, b) t).1.map not, (q.run (a, b) t).2)
    | _ => (some false, t)
  value := breaks fun a b => q.value (a, b)
  agrees l t b h := by
    split at h
    · obtain ⟨c, hc, rfl⟩ := Option.map_eq_some_iff.1 h
      rw [q.agrees _ _ _ hc, breaks]
    · rw [← Option.some.inj h]
      unfold breaks
      split
      · rename_i hx
        exact (hx _ _ rfl).elim
      · rfl

/-- `chunk_by_iterator::find_from_first` (`algorithms/chunk_by.cpp` 71-79), see `chunkEnd`. -/
def chunkEndC (r : RngC τ σ ρ) (q : Fn τ (ρ × ρ) Bool) (N : Nat) (first : σ) : Act τ σ := do
  let its ← adjacentBeginC r 2 first
  let its ← findIfC (adjacentC r) (breaksFn q) N its
  backC its

/-- `chunk_by_iterator` (`algorithms/chunk_by.cpp` 41-48, 61-63), see `chunkBy`. -/
def chunkByC (r : RngC τ σ ρ) (q : Fn τ (ρ × ρ) Bool) (N : Nat) : RngC τ (σ × σ) (σ × σ) where
  atEnd s := r.atEnd s.1
  deref s := pure (s.1, s.2)
  next s := do
    let m ← chunkEndC r q N s.2
    pure (s.2, m)

/-- `chunk_by::begin` (`algorithms/chunk_by.cpp` 33-39, 95-115). -/
def chunkByBeginC (r : RngC τ σ ρ) (q : Fn τ (ρ × ρ) Bool) (N : Nat) (first : σ) : Act τ (σ × σ) := do
  let m ← chunkEndC r q N first
  pure (first, m)

/-- A view: its iterators and the first of them. -/
structure BuiltC (τ ρ : Type) : Type 1 where
  σ : Type
  ops : RngC τ σ ρ
  first : σ

/-- A view of views of containers. Simplification: no use is made of random access, as for ranges that have none. -/
inductive PipeC (τ : Type) : Type → Type 1
  | elements {ρ : Type} (xs : List ρ) : PipeC τ ρ
  | map {ρ π : Type} (f : Fn τ ρ π) (p : PipeC τ ρ) : PipeC τ π
  | filter {ρ : Type} (q : Fn τ ρ Bool) (p : PipeC τ ρ) : PipeC τ ρ
  | take {ρ : Type} (n : Nat) (p : PipeC τ ρ) : PipeC τ ρ
  | drop {ρ : Type} (n : Nat) (p : PipeC τ ρ) : PipeC τ ρ
  | adjacent {ρ : Type} (k : Nat) (p : PipeC τ ρ) : PipeC τ (List ρ)
  | concat {ρ : Type} (p q : PipeC τ ρ) : PipeC τ ρ
  | zip {ρ π : Type} (p : PipeC τ ρ) (q : PipeC τ π) : PipeC τ (ρ × π)
  | join {ρ : Type} (joiner : List ρ) (p : PipeC τ (List ρ)) : PipeC τ ρ

/-- The construction of a view and the call of `begin`, which call functions where a first element is looked for or elements are skipped
(`algorithms/filter.cpp` 63-69, `take.cpp` 212-216, `algorithms/drop.cpp` 192-206, `algorithms/adjacent.cpp` 140-160,
`algorithms/join_with.cpp` 154-165, 241-261). `D` is the greatest difference of iterators.
The parts are those of `Pipe.build`, for forward ranges. -/
def PipeC.build (D : Nat) : {ρ : Type} → PipeC τ ρ → Act τ (BuiltC τ ρ)
  | _, .elements xs => .pure ⟨Nat, elementsC xs, 0⟩
  | _, .map f p => (p.build D).bind fun B => .pure ⟨B.σ, mapC f B.ops, B.first⟩
  | _, .filter q p => (p.build D).bind fun B => (findIfC B.ops q (D + 1) B.first).bind fun s => .pure ⟨B.σ, filterC (D + 1) q B.ops, s⟩
  | _, .take n p => (p.build D).bind fun B => .pure ⟨B.σ × Nat, takeC B.ops, (B.first, min n D)⟩
  | _, .drop n p => (p.build D).bind fun B => (dropLoopC B.ops n B.first).bind fun s => .pure ⟨B.σ, B.ops, s⟩
  | _, .adjacent k p => (p.build D).bind fun B => (adjacentBeginC B.ops k B.first).bind fun its => .pure ⟨List B.σ, adjacentC B.ops, its⟩
  | _, .concat p q => (p.build D).bind fun A => (q.build D).bind fun B => .pure ⟨A.σ × B.σ, concatC A.ops B.ops, (A.first, B.first)⟩
  | _, .zip p q => (p.build D).bind fun A => (q.build D).bind fun B => .pure ⟨A.σ × B.σ, zipC A.ops B.ops, (A.first, B.first)⟩
  | _, .join js p => (p.build D).bind fun B => (joinNormalizeC B.ops js (2 * D + 3) B.first (.joiner [])).bind fun s => .pure ⟨B.σ × JoinInC _, joinC B.ops js (2 * D + 3), s⟩

/-- How a loop over a range ends: with the elements it has seen. If something throws, the iterator is left where it was; `used` tells whether its element has
been seen, so that the exception comes from the increment. -/
inductive Stop (τ σ ρ : Type) where
  | finished (seen : List ρ) (t : τ)
  | threw (seen : List ρ) (s : σ) (used : Bool) (t : τ)
  | ub
  | more

/-- One more element has been seen. -/
def Stop.cons (x : ρ) : Stop τ σ ρ → Stop τ σ ρ
  | .finished xs t => .finished (x :: xs) t
  | .threw xs s u t => .threw (x :: xs) s u t
  | .ub => .ub
  | .more => .more

/-- `for (; it != last; it = it + 1) see(*it);`, started before the comparison or (`used`) before the increment. `more`: it has not ended after that many steps. -/
def loopC (r : RngC τ σ ρ) : Nat → σ → Bool → τ → Stop τ σ ρ
  | 0, _, _, _ => .more
  | f + 1, s, true, t =>
    match r.next s t with
    | .ok s' t => loopC r f s' false t
    | .exn t => .threw [] s true t
    | .ub => .ub
  | f + 1, s, false, t =>
    match r.atEnd s t with
    | .exn t => .threw [] s false t
    | .ub => .ub
    | .ok true t => .finished [] t
    | .ok false t =>
      match r.deref s t with
      | .exn t => .threw [] s false t
      | .ub => .ub
      | .ok x t => (loopC r f s true t).cons x

/-- The loop again and again with the same iterator, up to so many times, until no exception stops it. -/
def retryC (r : RngC τ σ ρ) (f : Nat) : Nat → σ → Bool → τ → Stop τ σ ρ
  | 0, s, u, t => loopC r f s u t
  | n + 1, s, u, t =>
    match loopC r f s u t with
    | .threw seen s u t =>
      match retryC r f n s u t with
      | .finished rest t => .finished (seen ++ rest) t
      | .threw rest s u t => .threw (seen ++ rest) s u t
      | .ub => .ub
      | .more => .more
    | e => e

/-! ## Specification -/

/-- The same functions on lists. -/
def PipeC.denote : {ρ : Type} → PipeC τ ρ → List ρ
  | _, .elements xs => xs
  | _, .map f p => p.denote.map f.value
  | _, .filter q p => p.denote.filter q.value
  | _, .take n p => p.denote.take n
  | _, .drop n p => p.denote.drop n
  | _, .adjacent k p => windows k p.denote
  | _, .concat p q => p.denote ++ q.denote
  | _, .zip p q => p.denote.zip q.denote
  | _, .join js p => js.intercalate p.denote

/-- No range on the way has more elements than the greatest difference, and groups are not empty. -/
def PipeC.Fits (D : Nat) : {ρ : Type} → PipeC τ ρ → Prop
  | _, .elements xs => xs.length ≤ D
  | _, .map _ p => p.Fits D
  | _, .filter _ p => p.Fits D
  | _, .take _ p => p.Fits D
  | _, .drop _ p => p.Fits D
  | _, .adjacent k p => k ≠ 0 ∧ p.Fits D
  | _, .concat p q => p.Fits D ∧ q.Fits D ∧ p.denote.length + q.denote.length ≤ D
  | _, .zip p q => p.Fits D ∧ q.Fits D
  | _, .join js p => p.Fits D ∧ (js.intercalate p.denote).length ≤ D

/-- The function never throws. -/
def Fn.Quiet (f : Fn τ A B) : Prop := ∀ a t, (f.run a t).1 ≠ none

/-- No function in the view ever throws. -/
def PipeC.Quiet : {ρ : Type} → PipeC τ ρ → Prop
  | _, .elements _ => True
  | _, .map f p => f.Quiet ∧ p.Quiet
  | _, .filter q p => q.Quiet ∧ p.Quiet
  | _, .take _ p => p.Quiet
  | _, .drop _ p => p.Quiet
  | _, .adjacent _ p => p.Quiet
  | _, .concat p q => p.Quiet ∧ q.Quiet
  | _, .zip p q => p.Quiet ∧ q.Quiet
  | _, .join _ p => p.Quiet

/-- Whatever the state is, nothing undefined happens, a result is as described, and only functions that may throw make it throw. -/
def Post {X : Type u} (quiet : Prop) (a : Act τ X) (Q : X → Prop) : Prop := ∀ t,
  match a t with
  | .ok x _ => Q x
  | .exn _ => ¬ quiet
  | .ub => False

/-- From the iterator on the range has these elements, whatever the state of the functions is and however often an operation is tried. -/
def VisitsC (quiet : Prop) (r : RngC τ σ ρ) : σ → List ρ → Prop
  | s, [] => Post quiet (r.atEnd s) (· = true)
  | s, x :: xs => Post quiet (r.atEnd s) (· = false) ∧ Post quiet (r.deref s) (· = x) ∧ ∃ s', Post quiet (r.next s) (· = s') ∧ VisitsC quiet r s' xs

/-- What a loop that has stopped has still to see. -/
def Left (quiet : Prop) (r : RngC τ σ ρ) (s : σ) (used : Bool) (rest : List ρ) : Prop :=
  if used then ∃ x, VisitsC quiet r s (x :: rest) else VisitsC quiet r s rest

/-! ## Proofs -/

section Post
variable {X : Type u} {Y : Type v} {quiet : Prop}

theorem Post.pure {x : X} {Q : X → Prop} (h : Q x) : Post quiet (Act.pure x : Act τ X) Q := fun _ => h

theorem Post.bind {a : Act τ X} {g : X → Act τ Y} {Q : X → Prop} {Q' : Y → Prop} (h : Post quiet a Q) (hg : ∀ x, Q x → Post quiet (g x) Q') :
    Post quiet (a.bind g) Q' := by
  intro t
  have := h t
  unfold Act.bind
  cases e : a t with
  | ok x t' => rw [e] at this; exact hg x this t'
  | exn t' => rw [e] at this; exact this
  | ub => rw [e] at this; exact this

theorem Post.mono {a : Act τ X} {quiet' : Prop} {Q Q' : X → Prop} (h : Post quiet a Q) (hq : quiet' → quiet) (hQ : ∀ x, Q x → Q' x) : Post quiet' a Q' := by
  intro t
  have := h t
  cases e : a t with
  | ok x t' => rw [e] at this; exact hQ x this
  | exn t' => rw [e] at this; exact fun q => this (hq q)
  | ub => rw [e] at this; exact this

theorem Post.eq {a : Act τ X} {g : X → Act τ Y} {x : X} {Q' : Y → Prop} (h : Post quiet a (· = x)) (hg : Post quiet (g x) Q') : Post quiet (a.bind g) Q' :=
  h.bind fun _ e => e ▸ hg

end Post

variable {quiet quiet' : Prop}

theorem Fn.post (f : Fn τ A B) (hq : quiet → f.Quiet) (a : A) : Post quiet (f.call a) (· = f.value a) := by
  intro t
  unfold Fn.call
  rcases h : f.run a t with ⟨_ | b, t'⟩
  · exact fun q => hq q a t (by rw [h])
  · exact f.agrees a t b (by rw [h])

theorem VisitsC.mono {r : RngC τ σ ρ} (hq : quiet' → quiet) : ∀ {xs : List ρ} {s : σ}, VisitsC quiet r s xs → VisitsC quiet' r s xs
  | [], _, h => Post.mono h hq fun _ e => e
  | _ :: _, _, ⟨h1, h2, s', h3, h4⟩ => ⟨h1.mono hq fun _ e => e, h2.mono hq fun _ e => e, s', h3.mono hq fun _ e => e, h4.mono hq⟩

theorem VisitsC.atEnd {r : RngC τ σ ρ} : ∀ {xs : List ρ} {s : σ}, VisitsC quiet r s xs → Post quiet (r.atEnd s) (· = xs.isEmpty)
  | [], _, h => h
  | _ :: _, _, h => h.1

theorem elementsC_visits (xs : List ρ) : ∀ k i, i + k = xs.length → VisitsC quiet (elementsC (τ := τ) xs) i (xs.drop i)
  | 0, i, hi => by
    rw [List.drop_eq_nil_of_le (by omega)]
    exact Post.pure (decide_eq_true (by omega))
  | k + 1, i, hi => by
    rw [List.drop_eq_getElem_cons (by omega)]
    refine ⟨Post.pure (decide_eq_false (by omega)), ?_, i + 1, ?_, elementsC_visits xs k (i + 1) (by omega)⟩
    · simp only [elementsC, List.getElem?_eq_getElem (by omega : i < xs.length)]
      exact Post.pure rfl
    · simp only [elementsC, if_pos (by omega : i < xs.length)]
      exact Post.pure rfl

theorem mapC_visits {f : Fn τ ρ π} (hq : quiet → f.Quiet) {r : RngC τ σ ρ} : ∀ {xs : List ρ} {s : σ}, VisitsC quiet r s xs → VisitsC quiet (mapC f r) s (xs.map f.value)
  | [], _, h => h
  | _ :: _, _, ⟨h1, h2, s', h3, h4⟩ => ⟨h1, h2.eq (f.post hq _), s', h3, mapC_visits hq h4⟩

theorem findIfC_post {p : Fn τ ρ Bool} (hq : quiet → p.Quiet) {r : RngC τ σ ρ} : ∀ {xs : List ρ} {s : σ} {f : Nat}, VisitsC quiet r s xs → xs.length < f →
    ∃ s', Post quiet (findIfC r p f s) (· = s') ∧ VisitsC quiet r s' (xs.dropWhile fun x => !p.value x)
  | _, _, 0, _, hf => by omega
  | [], s, f + 1, h, _ => ⟨s, Post.eq h (Post.pure rfl), h⟩
  | x :: xs, s, f + 1, h, hf => by
    obtain ⟨h1, h2, s', h3, h4⟩ := h
    cases hp : p.value x with
    | true =>
      refine ⟨s, Post.eq h1 (Post.eq h2 (Post.eq (p.post hq x) ?_)), ?_⟩
      · rw [hp]; exact Post.pure rfl
      · rw [List.dropWhile_cons, hp]
        exact ⟨h1, h2, s', h3, h4⟩
    | false =>
      obtain ⟨s'', e, v⟩ := findIfC_post hq (f := f) h4 (by simpa using hf)
      refine ⟨s'', Post.eq h1 (Post.eq h2 (Post.eq (p.post hq x) ?_)), ?_⟩
      · rw [hp]; exact Post.eq h3 e
      · rw [List.dropWhile_cons, hp]
        exact v

theorem head_dropWhile (p : ρ → Bool) (xs : List ρ) : ∀ y ∈ (xs.dropWhile fun x => !p x).head?, p y = true := by
  intro y hy
  have := List.head?_dropWhile_not (fun x => !p x) xs
  rw [Option.mem_def] at hy
  rw [hy] at this
  simpa using this

theorem filterC_visits {p : Fn τ ρ Bool} (hq : quiet → p.Quiet) {r : RngC τ σ ρ} {N : Nat} : ∀ (n : Nat) {xs : List ρ} {s : σ}, xs.length ≤ n → VisitsC quiet r s xs →
    xs.length < N → (∀ x ∈ xs.head?, p.value x = true) → VisitsC quiet (filterC N p r) s (xs.filter p.value)
  | _, [], _, _, h, _, _ => h
  | 0, _ :: _, _, hn, _, _, _ => by simp at hn
  | n + 1, x :: xs, s, hn, ⟨h1, h2, s', h3, h4⟩, hN, hp => by
    rw [List.filter_cons, if_pos (hp x (by simp))]
    rw [List.length_cons] at hN hn
    obtain ⟨s'', e, v⟩ := findIfC_post hq (f := N) h4 (by omega)
    have hl := (List.dropWhile_sublist (l := xs) fun x => !p.value x).length_le
    refine ⟨h1, h2, s'', Post.eq h1 (Post.eq h3 e), ?_⟩
    rw [← dropWhile_filter]
    exact filterC_visits hq n (by omega) v (by omega) (head_dropWhile _ _)

theorem takeC_visits {r : RngC τ σ ρ} : ∀ {xs : List ρ} {s : σ} (c : Nat), VisitsC quiet r s xs → VisitsC quiet (takeC r) (s, c) (xs.take c)
  | xs, s, 0, _ => by rw [List.take_zero]; exact Post.pure rfl
  | [], s, c + 1, h => h
  | x :: xs, s, c + 1, ⟨h1, h2, s', h3, h4⟩ => ⟨h1, h2, (s', c), Post.eq h3 (Post.pure rfl), takeC_visits c h4⟩

theorem dropLoopC_post {r : RngC τ σ ρ} : ∀ {n : Nat} {xs : List ρ} {s : σ}, VisitsC quiet r s xs →
    ∃ s', Post quiet (dropLoopC r n s) (· = s') ∧ VisitsC quiet r s' (xs.drop n)
  | 0, _, s, h => ⟨s, Post.pure rfl, h⟩
  | n + 1, [], s, h => ⟨s, Post.eq h (Post.pure rfl), h⟩
  | n + 1, x :: xs, s, ⟨h1, h2, s', h3, h4⟩ => by
    obtain ⟨s'', e, v⟩ := dropLoopC_post (n := n) h4
    exact ⟨s'', Post.eq h1 (Post.eq h3 e), v⟩

theorem concatC_visits {a : RngC τ σ ρ} {b : RngC τ σ' ρ} : ∀ {xs ys : List ρ} {s : σ} {s' : σ'}, VisitsC quiet a s xs → VisitsC quiet b s' ys →
    VisitsC quiet (concatC a b) (s, s') (xs ++ ys)
  | [], [], _, _, h, h' => Post.eq h h'
  | [], _ :: _, s, _, h, ⟨h1, h2, s2, h3, h4⟩ =>
    ⟨Post.eq h h1, Post.eq h h2, (s, s2), Post.eq h (Post.eq h1 (Post.eq h3 (Post.pure rfl))), concatC_visits (xs := []) h h4⟩
  | x :: xs, ys, _, s', ⟨h1, h2, s2, h3, h4⟩, h' =>
    ⟨Post.eq h1 (Post.pure rfl), Post.eq h1 h2, (s2, s'), Post.eq h1 (Post.eq h3 (Post.pure rfl)), concatC_visits h4 h'⟩

theorem zipC_visits {a : RngC τ σ ρ} {b : RngC τ σ' π} : ∀ {xs : List ρ} {ys : List π} {s : σ} {s' : σ'}, VisitsC quiet a s xs → VisitsC quiet b s' ys →
    VisitsC quiet (zipC a b) (s, s') (xs.zip ys)
  | [], _, _, _, h, _ => Post.eq h (Post.pure rfl)
  | _ :: _, [], _, _, h, h' => Post.eq h.1 h'
  | x :: xs, y :: ys, _, _, ⟨h1, h2, s2, h3, h4⟩, ⟨g1, g2, t2, g3, g4⟩ =>
    ⟨Post.eq h1 g1, Post.eq h2 (Post.eq g2 (Post.pure rfl)), (s2, t2), Post.eq h3 (Post.eq g3 (Post.pure rfl)), zipC_visits h4 g4⟩

/-- The iterators of a group. -/
def Group (quiet : Prop) (r : RngC τ σ ρ) : List σ → List ρ → Prop
  | [], _ => True
  | s :: ss, xs => VisitsC quiet r s xs ∧ Group quiet r ss xs.tail

theorem adjacentBeginC_post {r : RngC τ σ ρ} : ∀ {k : Nat} {xs : List ρ} {s : σ}, VisitsC quiet r s xs →
    ∃ its, Post quiet (adjacentBeginC r k s) (· = its) ∧ its.length = k ∧ Group quiet r its xs
  | 0, _, _, _ => ⟨[], Post.pure rfl, rfl, trivial⟩
  | k + 1, [], s, h => by
    obtain ⟨its, e, hl, g⟩ := adjacentBeginC_post (k := k) h
    exact ⟨s :: its, Post.eq (x := s) (Post.eq h (Post.pure rfl)) (Post.eq e (Post.pure rfl)), by rw [List.length_cons, hl], h, g⟩
  | k + 1, x :: xs, s, ⟨h1, h2, s', h3, h4⟩ => by
    obtain ⟨its, e, hl, g⟩ := adjacentBeginC_post (k := k) h4
    exact ⟨s :: its, Post.eq (x := s') (Post.eq h1 h3) (Post.eq e (Post.pure rfl)), by rw [List.length_cons, hl], ⟨h1, h2, s', h3, h4⟩, g⟩

theorem derefAllC_post {r : RngC τ σ ρ} : ∀ {its : List σ} {xs : List ρ}, Group quiet r its xs → its.length ≤ xs.length →
    Post quiet (derefAllC r its) (· = xs.take its.length)
  | [], xs, _, _ => by rw [List.length_nil, List.take_zero]; exact Post.pure rfl
  | _ :: _, [], _, h => by simp at h
  | s :: ss, x :: xs, ⟨h1, h2⟩, hl => by
    rw [List.length_cons, List.take_succ_cons]
    exact Post.eq h1.2.1 (Post.eq (derefAllC_post h2 (by simpa using hl)) (Post.pure rfl))

theorem Group.back {r : RngC τ σ ρ} : ∀ {its : List σ} {xs : List ρ}, its ≠ [] → Group quiet r its xs →
    ∃ s, its.getLast? = some s ∧ VisitsC quiet r s (xs.drop (its.length - 1))
  | [], _, h, _ => absurd rfl h
  | [s], xs, _, h => ⟨s, rfl, h.1⟩
  | s :: s' :: ss, xs, _, h => by
    obtain ⟨b, e, v⟩ := Group.back (its := s' :: ss) (by simp) h.2
    refine ⟨b, by rw [← e]; rfl, ?_⟩
    simp only [List.length_cons, Nat.add_sub_cancel] at v ⊢
    rw [← List.drop_one, List.drop_drop, Nat.add_comm] at v
    exact v

theorem Group.snoc {r : RngC τ σ ρ} {s : σ} : ∀ {its : List σ} {xs : List ρ}, Group quiet r its xs → VisitsC quiet r s (xs.drop its.length) → Group quiet r (its ++ [s]) xs
  | [], _, _, h => ⟨h, trivial⟩
  | _ :: ss, xs, ⟨h1, h2⟩, h => by
    refine ⟨h1, Group.snoc h2 ?_⟩
    rw [← List.drop_one, List.drop_drop, Nat.add_comm]
    exact h

theorem windows_short {k : Nat} {xs : List ρ} (h : xs.length < k) : windows k xs = [] := by
  rw [windows, show xs.length + 1 - k = 0 by omega]
  rfl

theorem windows_cons {k : Nat} {x : ρ} {xs : List ρ} (h : k ≤ (x :: xs).length) : windows k (x :: xs) = (x :: xs).take k :: windows k xs := by
  rw [List.length_cons] at h
  rw [windows, windows, List.length_cons, show xs.length + 1 + 1 - k = (xs.length + 1 - k) + 1 by omega, List.range_succ_eq_map, List.map_cons, List.map_map]
  rfl

theorem adjacentC_visits {r : RngC τ σ ρ} {k : Nat} (hk : k ≠ 0) : ∀ (xs : List ρ) {its : List σ}, its.length = k → Group quiet r its xs →
    VisitsC quiet (adjacentC r) its (windows k xs)
  | xs, its, hl, g => by
    obtain ⟨b, eb, vb⟩ := g.back (by rintro rfl; exact hk hl.symm)
    have eback : Post quiet (backC its : Act τ σ) (· = b) := by
      unfold backC
      rw [eb]
      exact Post.pure rfl
    by_cases h : xs.length < k
    · rw [windows_short h]
      rw [hl, List.drop_eq_nil_of_le (by omega)] at vb
      exact Post.eq eback vb
    · match xs, g, h, vb with
      | [], g, h, vb => exact absurd (by simpa using h) hk
      | x :: xs, g, h, vb =>
        rw [windows_cons (by omega)]
        have hd : (x :: xs).drop (its.length - 1) = (x :: xs)[k - 1]'(by omega) :: xs.drop (k - 1) := by
          rw [hl, List.drop_eq_getElem_cons (by omega : k - 1 < (x :: xs).length)]
          simp
        rw [hd] at vb
        obtain ⟨h1, -, s', h3, h4⟩ := vb
        refine ⟨Post.eq eback h1, ?_, its.tail ++ [s'], Post.eq eback (Post.eq h3 (Post.pure rfl)), ?_⟩
        · rw [← hl]
          exact derefAllC_post g (by omega)
        · refine adjacentC_visits hk xs (by simp; omega) ?_
          cases its with
          | nil => exact absurd hl.symm hk
          | cons s ss =>
            refine Group.snoc g.2 ?_
            rw [List.length_cons] at hl
            rw [List.tail_cons, show ss.length = k - 1 by omega]
            exact h4
termination_by xs => xs.length

mutual

theorem joinC_inner {O : RngC τ σ (List ρ)} {js : List ρ} {N : Nat} : ∀ (Rs : List (List ρ)) (ys : List ρ) {t : σ} {R : List ρ} {f : Nat}, VisitsC quiet O t (R :: Rs) →
    2 * Rs.length + 2 ≤ f → 2 * Rs.length + 2 ≤ N →
    ∃ it, Post quiet (joinNormalizeC O js f t (.inner ys)) (· = it) ∧ VisitsC quiet (joinC O js N) it (ys ++ joinTail js Rs)
  | Rs, y :: ys, t, R, f + 1, hO, _, hN => by
    obtain ⟨it, e, v⟩ := joinC_inner (N := N) (f := N) Rs ys hO hN hN
    exact ⟨(t, .inner (y :: ys)), Post.eq hO.1 (Post.pure rfl), hO.1, Post.pure rfl, it, e, v⟩
  | [], [], t, R, f + 2, ⟨o1, _, t', o3, o4⟩, _, _ => ⟨(t', .joiner js), Post.eq o1 (Post.eq o3 (Post.eq o4 (Post.pure rfl))), o4⟩
  | R' :: Rs, [], t, R, f + 1, ⟨o1, _, t', o3, o4⟩, hf, hN => by
    rw [List.length_cons] at hf hN
    obtain ⟨it, e, v⟩ := joinC_joiner (N := N) (f := f) Rs js o4 (by omega) (by omega)
    refine ⟨it, Post.eq o1 (Post.eq o3 e), ?_⟩
    rw [List.nil_append, joinTail_cons]
    exact v
  termination_by Rs ys => (Rs.length, 1, ys.length)

theorem joinC_joiner {O : RngC τ σ (List ρ)} {js : List ρ} {N : Nat} : ∀ (Rs : List (List ρ)) (ks : List ρ) {t : σ} {R : List ρ} {f : Nat}, VisitsC quiet O t (R :: Rs) →
    2 * Rs.length + 3 ≤ f → 2 * Rs.length + 3 ≤ N →
    ∃ it, Post quiet (joinNormalizeC O js f t (.joiner ks)) (· = it) ∧ VisitsC quiet (joinC O js N) it (ks ++ (R ++ joinTail js Rs))
  | Rs, k :: ks, t, R, f + 1, hO, _, hN => by
    obtain ⟨it, e, v⟩ := joinC_joiner (N := N) (f := N) Rs ks hO hN hN
    exact ⟨(t, .joiner (k :: ks)), Post.eq hO.1 (Post.pure rfl), hO.1, Post.pure rfl, it, e, v⟩
  | Rs, [], t, R, f + 1, hO, hf, hN => by
    obtain ⟨it, e, v⟩ := joinC_inner (N := N) (f := f) Rs R hO (by omega) (by omega)
    exact ⟨it, Post.eq hO.1 (Post.eq hO.2.1 e), v⟩
  termination_by Rs ks => (Rs.length + 1, 0, ks.length)

end

theorem joinC_visits {O : RngC τ σ (List ρ)} {js : List ρ} {N : Nat} {Rs : List (List ρ)} {t : σ} (h : VisitsC quiet O t Rs) (hN : 2 * Rs.length + 3 ≤ N) :
    ∃ it, Post quiet (joinNormalizeC O js N t (.joiner [])) (· = it) ∧ VisitsC quiet (joinC O js N) it (js.intercalate Rs) := by
  cases Rs with
  | nil =>
    match N, hN with
    | N + 1, _ => exact ⟨(t, .joiner []), Post.eq h (Post.pure rfl), h⟩
  | cons R Rs =>
    rw [List.length_cons] at hN
    rw [intercalate_eq_tail]
    exact joinC_joiner Rs [] h (by omega) (by omega)

theorem PipeC.length_le {D : Nat} : {ρ : Type} → (p : PipeC τ ρ) → p.Fits D → p.denote.length ≤ D
  | _, .elements xs, h => h
  | _, .map f p, h => by rw [denote, List.length_map]; exact p.length_le h
  | _, .filter q p, h => (List.length_filter_le _ _).trans (p.length_le h)
  | _, .take n p, h => by rw [denote, List.length_take]; have := p.length_le h; omega
  | _, .drop n p, h => by rw [denote, List.length_drop]; have := p.length_le h; omega
  | _, .adjacent k p, h => by
    have := p.length_le h.2
    have h1 := h.1
    rw [denote, windows, List.length_map, List.length_range]; omega
  | _, .concat p q, h => by rw [denote, List.length_append]; exact h.2.2
  | _, .zip p q, h => by rw [denote, List.length_zip]; have := p.length_le h.1; omega
  | _, .join js p, h => h.2

/-- **C116**, every view of views of containers, with functions that may throw at any call: the construction throws or gives a view that has exactly the elements
that the same functions on lists give, whatever the functions have done before and however often an operation of an iterator is tried again. Nothing undefined
happens, and nothing throws if no function does. -/
theorem C116_view {D : Nat} : {ρ : Type} → (p : PipeC τ ρ) → p.Fits D → Post p.Quiet (p.build D) fun B => VisitsC p.Quiet B.ops B.first p.denote
  | _, .elements xs, _ => Post.pure (by
      have := elementsC_visits (τ := τ) (quiet := PipeC.Quiet (τ := τ) (.elements xs)) xs xs.length 0 (by omega)
      rwa [List.drop_zero] at this)
  | _, .map f p, h => ((C116_view p h).mono (fun q : PipeC.Quiet (.map f p) => q.2) fun _ e => e).bind fun B v =>
      Post.pure (mapC_visits (fun q => q.1) (v.mono fun q => q.2))
  | _, .filter q p, h => ((C116_view p h).mono (fun x : PipeC.Quiet (.filter q p) => x.2) fun _ e => e).bind fun B v => by
      have hl := p.length_le h
      obtain ⟨s, e, v⟩ := findIfC_post (quiet := PipeC.Quiet (.filter q p)) (p := q) (fun q => q.1) (f := D + 1) (v.mono fun q => q.2) (by omega)
      refine e.eq (Post.pure ?_)
      have hl' := (List.dropWhile_sublist (l := p.denote) fun x => !q.value x).length_le
      show VisitsC _ _ _ (p.denote.filter q.value)
      rw [← dropWhile_filter]
      exact filterC_visits (fun q => q.1) _ (Nat.le_refl _) v (by omega) (head_dropWhile _ _)
  | _, .take n p, h => (C116_view p h).bind fun B v => Post.pure (by
      have := takeC_visits (min n D) v
      have e : p.denote.take (min n D) = p.denote.take n := by
        have := p.length_le h
        rcases Nat.le_total n D with hc | hc
        · rw [Nat.min_eq_left hc]
        · rw [Nat.min_eq_right hc, List.take_of_length_le this, List.take_of_length_le (by omega)]
      rw [e] at this
      exact this)
  | _, .drop n p, h => (C116_view p h).bind fun B v => by
      obtain ⟨s, e, v⟩ := dropLoopC_post (n := n) v
      exact e.eq (Post.pure v)
  | _, .adjacent k p, h => (C116_view p h.2).bind fun B v => by
      obtain ⟨its, e, hl, g⟩ := adjacentBeginC_post (k := k) v
      exact e.eq (Post.pure (adjacentC_visits h.1 _ hl g))
  | _, .concat p q, h => ((C116_view p h.1).mono (fun x : PipeC.Quiet (.concat p q) => x.1) fun _ e => e).bind fun A v =>
      ((C116_view q h.2.1).mono (fun x : PipeC.Quiet (.concat p q) => x.2) fun _ e => e).bind fun B w =>
        Post.pure (concatC_visits (v.mono fun x => x.1) (w.mono fun x => x.2))
  | _, .zip p q, h => ((C116_view p h.1).mono (fun x : PipeC.Quiet (.zip p q) => x.1) fun _ e => e).bind fun A v =>
      ((C116_view q h.2).mono (fun x : PipeC.Quiet (.zip p q) => x.2) fun _ e => e).bind fun B w =>
        Post.pure (zipC_visits (v.mono fun x => x.1) (w.mono fun x => x.2))
  | _, .join js p, h => (C116_view p h.1).bind fun B v => by
      have := p.length_le h.1
      obtain ⟨it, e, w⟩ := joinC_visits (js := js) (N := 2 * D + 3) v (by omega)
      exact e.eq (Post.pure w)

/-- **C116**, a loop over such a range that is stopped by an exception has seen a first part of the elements, and its iterator is where the loop can go on: there
the rest of the elements is. A loop that is not stopped sees all elements. -/
theorem C116_loop {r : RngC τ σ ρ} : ∀ (f : Nat) {rest : List ρ} {s : σ} {used : Bool} (t : τ), Left quiet r s used rest → 2 * rest.length + (if used then 1 else 0) < f →
    match loopC r f s used t with
    | .finished seen _ => seen = rest
    | .threw seen s' used' _ => ¬ quiet ∧ ∃ rest', rest = seen ++ rest' ∧ Left quiet r s' used' rest'
    | .ub => False
    | .more => False
  | 0, _, _, _, _, _, hf => by omega
  | f + 1, rest, s, true, t, h, hf => by
    obtain ⟨x, h1, h2, s', h3, h4⟩ := h
    have := h3 t
    unfold loopC
    cases e : r.next s t with
    | ub => rw [e] at this; exact this
    | exn t' => rw [e] at this; exact ⟨this, rest, rfl, x, h1, h2, s', h3, h4⟩
    | ok s'' t' =>
      rw [e] at this
      have this : s'' = s' := this
      subst this
      have ih := C116_loop f (used := false) t' h4 (by simp at hf ⊢; omega)
      exact ih
  | f + 1, [], s, false, t, h, hf => by
    have h : Post quiet (r.atEnd s) (· = true) := h
    have h1 := h t
    unfold loopC
    cases e : r.atEnd s t with
    | ub => rw [e] at h1; exact h1
    | exn t' => rw [e] at h1; exact ⟨h1, [], rfl, h⟩
    | ok b t' =>
      rw [e] at h1
      have h1 : b = true := h1
      subst h1
      rfl
  | f + 1, x :: rest, s, false, t, h, hf => by
    have h0 : VisitsC quiet r s (x :: rest) := h
    obtain ⟨h1, h2, s', h3, h4⟩ := h0
    have p1 := h1 t
    unfold loopC
    cases e : r.atEnd s t with
    | ub => rw [e] at p1; exact p1
    | exn t' => rw [e] at p1; exact ⟨p1, x :: rest, rfl, h⟩
    | ok b t' =>
      rw [e] at p1
      have p1 : b = false := p1
      subst p1
      have p2 := h2 t'
      dsimp only
      cases e2 : r.deref s t' with
      | ub => rw [e2] at p2; exact p2
      | exn t'' => rw [e2] at p2; exact ⟨p2, x :: rest, rfl, h⟩
      | ok y t'' =>
        rw [e2] at p2
        have p2 : y = x := p2
        subst p2
        have ih := C116_loop f (used := true) t'' (rest := rest) (s := s) ⟨y, h1, h2, s', h3, h4⟩ (by simp at hf ⊢; omega)
        dsimp only
        cases e3 : loopC r f s true t'' with
        | finished seen t3 => rw [e3] at ih; exact congrArg (y :: ·) ih
        | threw seen s3 u3 t3 =>
          rw [e3] at ih
          obtain ⟨q, rest', e, l⟩ := ih
          exact ⟨q, rest', congrArg (y :: ·) e, l⟩
        | ub => rw [e3] at ih; exact ih
        | more => rw [e3] at ih; exact ih

/-- **C116**, the same if the loop is taken up again after each exception, any number of times: when it ends it has seen every element exactly once, in order. -/
theorem C116_retry {r : RngC τ σ ρ} : ∀ (n f : Nat) {rest : List ρ} {s : σ} {used : Bool} (t : τ), Left quiet r s used rest → 2 * rest.length + 1 < f →
    match retryC r f n s used t with
    | .finished seen _ => seen = rest
    | .threw seen s' used' _ => ¬ quiet ∧ ∃ rest', rest = seen ++ rest' ∧ Left quiet r s' used' rest'
    | .ub => False
    | .more => False
  | 0, f, rest, s, used, t, h, hf => C116_loop f t h (by split <;> omega)
  | n + 1, f, rest, s, used, t, h, hf => by
    have h1 := C116_loop f t h (by split <;> omega)
    unfold retryC
    cases e : loopC r f s used t with
    | finished seen t' => rw [e] at h1; exact h1
    | ub => rw [e] at h1; exact h1
    | more => rw [e] at h1; exact h1
    | threw seen s' u' t' =>
      rw [e] at h1
      obtain ⟨q, rest', e1, l⟩ := h1
      have ih := C116_retry n f t' l (by rw [e1, List.length_append] at hf; omega)
      dsimp only
      cases e2 : retryC r f n s' u' t' with
      | finished seen' t2 => rw [e2] at ih; rw [e1, ← (show seen' = rest' from ih)]
      | ub => rw [e2] at ih; exact ih
      | more => rw [e2] at ih; exact ih
      | threw seen' s2 u2 t2 =>
        rw [e2] at ih
        obtain ⟨q, rest2, e3, l2⟩ := ih
        exact ⟨q, rest2, by rw [e1, e3, List.append_assoc], l2⟩

/-- **C116**, together: a view of views is built and looped over, and the loop is taken up again after each exception. The elements seen are those of the same
functions on lists, all of them if the loop ends. -/
theorem C116_view_retry {D : Nat} (p : PipeC τ ρ) (hp : p.Fits D) (n : Nat) (t : τ) :
    match p.build D t with
    | .ok B t =>
      match retryC B.ops (2 * D + 2) n B.first false t with
      | .finished seen _ => seen = p.denote
      | .threw seen s' used' _ => ¬ p.Quiet ∧ ∃ rest, p.denote = seen ++ rest ∧ Left p.Quiet B.ops s' used' rest
      | .ub => False
      | .more => False
    | .exn _ => ¬ p.Quiet
    | .ub => False := by
  have h := C116_view p hp t
  cases e : p.build D t with
  | ub => rw [e] at h; exact h
  | exn t' => rw [e] at h; exact h
  | ok B t' =>
    rw [e] at h
    have hr := C116_retry n (2 * D + 2) t' (used := false) (rest := p.denote) h (by have := p.length_le hp; omega)
    dsimp only
    cases e2 : retryC B.ops (2 * D + 2) n B.first false t' with
    | finished seen t2 => rw [e2] at hr; exact hr
    | threw seen s2 u2 t2 => rw [e2] at hr; exact hr
    | ub => rw [e2] at hr; exact hr
    | more => rw [e2] at hr; exact hr

theorem breaksFn_quiet {q : Fn τ (ρ × ρ) Bool} (h : q.Quiet) : (breaksFn q).Quiet := by
  intro l t
  simp only [breaksFn]
  split
  · simpa using h _ t
  · simp

/-- The first chunk. -/
def chunkOf (p : ρ → ρ → Bool) : List ρ → List ρ
  | x :: y :: ys => if p x y then x :: chunkOf p (y :: ys) else [x]
  | xs => xs

/-- What is behind the first chunk. -/
def afterChunk (p : ρ → ρ → Bool) : List ρ → List ρ
  | x :: y :: ys => if p x y then afterChunk p (y :: ys) else y :: ys
  | _ => []

theorem chunk_after (p : ρ → ρ → Bool) : ∀ xs : List ρ, chunkOf p xs ++ afterChunk p xs = xs
  | [] => rfl
  | [_] => rfl
  | x :: y :: ys => by
    rw [chunkOf, afterChunk]
    split
    · rw [List.cons_append, chunk_after p (y :: ys)]
    · rfl

theorem chunk_head (p : ρ → ρ → Bool) (x : ρ) : ∀ xs : List ρ, ∃ c, chunkOf p (x :: xs) = x :: c
  | [] => ⟨[], rfl⟩
  | y :: ys => by
    rw [chunkOf]
    split
    · exact ⟨_, rfl⟩
    · exact ⟨_, rfl⟩

theorem chunk_chain (p : ρ → ρ → Bool) : ∀ xs : List ρ, (chunkOf p xs).IsChain fun a b => p a b = true
  | [] => List.IsChain.nil
  | [x] => List.IsChain.singleton x
  | x :: y :: ys => by
    rw [chunkOf]
    split
    · have ih := chunk_chain p (y :: ys)
      obtain ⟨c, hc⟩ := chunk_head p y ys
      rw [hc] at ih ⊢
      exact List.isChain_cons_cons.2 ⟨by assumption, ih⟩
    · exact List.IsChain.singleton x

theorem chunk_border (p : ρ → ρ → Bool) : ∀ xs : List ρ, ∀ a ∈ (chunkOf p xs).getLast?, ∀ b ∈ (afterChunk p xs).head?, p a b = false
  | [] => by simp [chunkOf]
  | [x] => by simp [afterChunk]
  | x :: y :: ys => by
    intro a ha b hb
    rw [chunkOf] at ha
    rw [afterChunk] at hb
    split at ha
    · rename_i h
      rw [if_pos h] at hb
      obtain ⟨c, hc⟩ := chunk_head p y ys
      refine chunk_border p (y :: ys) a ?_ b hb
      rw [hc] at ha ⊢
      rwa [List.getLast?_cons_cons] at ha
    · rename_i h
      rw [if_neg h] at hb
      simp at ha hb
      subst ha hb
      simpa using h

theorem chunkFind_post {q : Fn τ (ρ × ρ) Bool} (hq : quiet → q.Quiet) {r : RngC τ σ ρ} : ∀ {f : Nat} (xs : List ρ) {its : List σ}, its.length = 2 → Group quiet r its xs →
    xs.length < f → ∃ its' s, Post quiet (findIfC (adjacentC r) (breaksFn q) f its) (· = its') ∧ Post quiet (backC its' : Act τ σ) (· = s) ∧
      VisitsC quiet r s (afterChunk (fun a b => q.value (a, b)) xs)
  | 0, _, _, _, _, hf => by omega
  | f + 1, xs, its, hl, g, hf => by
    have hv := adjacentC_visits (by omega : 2 ≠ 0) xs hl g
    obtain ⟨b, eb, vb⟩ := g.back (by rintro rfl; simp at hl)
    have eback : Post quiet (backC its : Act τ σ) (· = b) := by
      unfold backC
      rw [eb]
      exact Post.pure rfl
    rw [hl] at vb
    match xs, hv, g, hf, vb with
    | [], hv, _, _, vb => exact ⟨its, b, Post.eq hv (Post.pure rfl), eback, vb⟩
    | [x], hv, _, _, vb => exact ⟨its, b, Post.eq hv (Post.pure rfl), eback, vb⟩
    | x :: y :: ys, hv, g, hf, vb =>
      rw [windows_cons (by simp)] at hv
      obtain ⟨h1, h2, -⟩ := hv
      have h5 := (breaksFn q).post (fun c => breaksFn_quiet (hq c)) [x, y]
      cases hp : q.value (x, y) with
      | false =>
        rw [show (breaksFn q).value [x, y] = true by simp [breaksFn, breaks, hp]] at h5
        refine ⟨its, b, Post.eq h1 (Post.eq h2 (Post.eq h5 (Post.pure rfl))), eback, ?_⟩
        rw [afterChunk, hp]
        exact vb
      | true =>
        rw [show (breaksFn q).value [x, y] = false by simp [breaksFn, breaks, hp]] at h5
        obtain ⟨v1, -, s', v3, v4⟩ := (show VisitsC quiet r b (y :: ys) from vb)
        have hg : Group quiet r (its.tail ++ [s']) (y :: ys) := by
          cases its with
          | nil => simp at hl
          | cons a rest =>
            refine Group.snoc g.2 ?_
            rw [List.length_cons] at hl
            rw [List.tail_cons, show rest.length = 1 by omega]
            exact v4
        obtain ⟨its', s, e1, e2, e3⟩ := chunkFind_post hq (f := f) (y :: ys) (its := its.tail ++ [s']) (by simp; omega) hg (by simp at hf ⊢; omega)
        refine ⟨its', s, Post.eq h1 (Post.eq h2 (Post.eq h5 (Post.eq (Post.eq eback (Post.eq v3 (Post.pure rfl))) e1))), e2, ?_⟩
        rw [afterChunk, hp]
        exact e3

theorem chunkEndC_post {q : Fn τ (ρ × ρ) Bool} (hq : quiet → q.Quiet) {r : RngC τ σ ρ} {N : Nat} {xs : List ρ} {s : σ} (h : VisitsC quiet r s xs) (hN : xs.length < N) :
    ∃ m, Post quiet (chunkEndC r q N s) (· = m) ∧ VisitsC quiet r m (afterChunk (fun a b => q.value (a, b)) xs) := by
  obtain ⟨its, e, hl, g⟩ := adjacentBeginC_post (k := 2) h
  obtain ⟨its', m, e1, e2, e3⟩ := chunkFind_post hq xs hl g hN
  exact ⟨m, Post.eq e (Post.eq e1 e2), e3⟩

/-- What is between two iterators. -/
def Between (quiet : Prop) (r : RngC τ σ ρ) (part : σ × σ) (chunk : List ρ) : Prop :=
  ∃ rest, VisitsC quiet r part.1 (chunk ++ rest) ∧ VisitsC quiet r part.2 rest

theorem chunkByC_visits {q : Fn τ (ρ × ρ) Bool} (hq : quiet → q.Quiet) {r : RngC τ σ ρ} {N : Nat} : ∀ (n : Nat) (xs : List ρ) {s m : σ}, xs.length ≤ n → xs.length < N →
    VisitsC quiet r s xs → VisitsC quiet r m (afterChunk (fun a b => q.value (a, b)) xs) →
    ∃ parts chunks, VisitsC quiet (chunkByC r q N) (s, m) parts ∧ IsChunks (fun a b => q.value (a, b)) xs chunks ∧ List.Forall₂ (Between quiet r) parts chunks
  | _, [], s, m, _, _, h, _ => ⟨[], [], h, ⟨rfl, by simp, by simp, List.IsChain.nil⟩, .nil⟩
  | 0, _ :: _, _, _, hn, _, _, _ => by simp at hn
  | n + 1, x :: xs, s, m, hn, hN, h, hm => by
    have hc := chunk_after (fun a b => q.value (a, b)) (x :: xs)
    obtain ⟨c, ec⟩ := chunk_head (fun a b => q.value (a, b)) x xs
    have hlen : (afterChunk (fun a b => q.value (a, b)) (x :: xs)).length ≤ xs.length := by
      have := congrArg List.length hc
      rw [ec] at this
      simp at this
      omega
    rw [List.length_cons] at hn hN
    obtain ⟨m', e, v⟩ := chunkEndC_post hq (N := N) hm (by omega)
    obtain ⟨parts, chunks, p1, p2, p3⟩ := chunkByC_visits hq (N := N) n _ (by omega) (by omega) hm v
    refine ⟨(s, m) :: parts, chunkOf (fun a b => q.value (a, b)) (x :: xs) :: chunks, ⟨h.1, Post.pure rfl, (m, m'), Post.eq e (Post.pure rfl), p1⟩, ⟨?_, ?_, ?_, ?_⟩, .cons ⟨_, ?_, hm⟩ p3⟩
    · rw [List.flatten_cons, p2.flatten, hc]
    · intro d hd
      rcases List.mem_cons.1 hd with rfl | hd
      · rw [ec]; simp
      · exact p2.nonempty d hd
    · intro d hd
      rcases List.mem_cons.1 hd with rfl | hd
      · exact chunk_chain _ _
      · exact p2.inside d hd
    · cases chunks with
      | nil => exact List.IsChain.singleton _
      | cons d ds =>
        refine List.isChain_cons_cons.2 ⟨fun a ha b hb => chunk_border _ (x :: xs) a ha b ?_, p2.border⟩
        rw [← p2.flatten, List.flatten_cons]
        cases d with
        | nil => simp at hb
        | cons d0 d' => simpa using hb
    · rw [hc]; exact h

/-- **C116**, `chunk_by` of such a view, with a predicate that may throw: the call of `begin` throws or gives an iterator whose elements are the chunks. So loops
over them that exceptions stop can go on (`C116_loop`), and so can loops over a chunk. -/
theorem C116_chunk_by {D : Nat} (p : PipeC τ ρ) (hp : p.Fits D) (q : Fn τ (ρ × ρ) Bool) :
    Post (q.Quiet ∧ p.Quiet) ((p.build D).bind fun B => (chunkByBeginC B.ops q (D + 1) B.first).bind fun s => .pure (⟨B, s⟩ : (B : BuiltC τ ρ) × (B.σ × B.σ))) fun V =>
      ∃ parts chunks, VisitsC (q.Quiet ∧ p.Quiet) (chunkByC V.1.ops q (D + 1)) V.2 parts ∧ IsChunks (fun a b => q.value (a, b)) p.denote chunks ∧
        List.Forall₂ (Between (q.Quiet ∧ p.Quiet) V.1.ops) parts chunks := by
  refine ((C116_view p hp).mono (fun x : q.Quiet ∧ p.Quiet => x.2) fun _ e => e).bind fun B v => ?_
  have v := v.mono fun x : q.Quiet ∧ p.Quiet => x.2
  have hl := p.length_le hp
  obtain ⟨m, e, w⟩ := chunkEndC_post (q := q) (fun x => x.1) (N := D + 1) v (by omega)
  obtain ⟨parts, chunks, h⟩ := chunkByC_visits (q := q) (fun x => x.1) (N := D + 1) _ _ (Nat.le_refl _) (by omega) v w
  exact (Post.eq (x := (B.first, m)) (Post.eq e (Post.pure rfl)) (Post.pure ⟨parts, chunks, h⟩))

/-! ## Cases -/

/-- What a loop has seen, and whether it has ended. -/
def Stop.seen : Stop τ σ ρ → Option (List ρ × Bool)
  | .finished xs _ => some (xs, true)
  | .threw xs _ _ _ => some (xs, false)
  | .ub => none
  | .more => none

/-- What the loops over a view see. -/
def PipeC.seen (D n : Nat) (p : PipeC τ ρ) (t : τ) : Option (List ρ × Bool) :=
  match p.build D t with
  | .ok B t => (retryC B.ops (2 * D + 2) n B.first false t).seen
  | _ => none

/-- Odd numbers; the call whose number is a multiple of seven throws. -/
def oddFn : Fn Nat Nat Bool where
  run a t := (if t % 7 = 6 then none else some (decide (a % 2 = 1)), t + 1)
  value a := decide (a % 2 = 1)
  agrees a t b h := by
    dsimp only at h
    split at h
    · exact absurd h (by simp)
    · exact (Option.some.inj h).symm

/-- Ten times a number; the call whose number is a multiple of seven throws. -/
def tenFn : Fn Nat Nat Nat where
  run a t := (if t % 7 = 6 then none else some (10 * a), t + 1)
  value a := 10 * a
  agrees a t b h := by
    dsimp only at h
    split at h
    · exact absurd h (by simp)
    · exact (Option.some.inj h).symm

/-- Pairs of neighbours among ten times the odd numbers, with another range behind it. -/
def pairsOfOdd : PipeC Nat (List Nat) := .concat (.adjacent 2 (.map tenFn (.filter oddFn (.elements [1, 2, 3, 4, 5, 7])))) (.elements [[0]])

example : pairsOfOdd.Fits 8 := by
  simp [pairsOfOdd, PipeC.Fits, PipeC.denote, windows, oddFn]

example : ¬ pairsOfOdd.Quiet := fun h => h.1.1 1 6 rfl

/-- The first loop is stopped before it has seen anything, the second after two elements; the third ends. -/
example : pairsOfOdd.seen 8 0 0 = some ([], false) := by decide +kernel
example : pairsOfOdd.seen 8 1 0 = some ([[10, 30], [30, 50]], false) := by decide +kernel
example : pairsOfOdd.seen 8 2 0 = some ([[10, 30], [30, 50], [50, 70], [0]], true) := by decide +kernel

/-- An exception while the first element is looked for comes out of the construction. -/
example : pairsOfOdd.seen 8 2 4 = none := by decide +kernel

/-- Both odd or both even; the call whose number is a multiple of seven throws. -/
def sameFn : Fn Nat (Nat × Nat) Bool where
  run a t := (if t % 7 = 6 then none else some (decide (a.1 % 2 = a.2 % 2)), t + 1)
  value a := decide (a.1 % 2 = a.2 % 2)
  agrees a t b h := by
    dsimp only at h
    split at h
    · exact absurd h (by simp)
    · exact (Option.some.inj h).symm

/-- The hypotheses of `C116_chunk_by`, for a view whose function may throw too. -/
example : (PipeC.map tenFn (.elements [1, 3, 4])).Fits 3 ∧ ¬ sameFn.Quiet := ⟨Nat.le_refl 3, fun h => h (1, 1) 6 rfl⟩

/-- Chunks of `1, 3, 4, 6, 6, 7, 9`, given by the numbers of the elements: the first loop is stopped after the second chunk has been seen. -/
example : (retryC (chunkByC (elementsC (τ := Nat) [1, 3, 4, 6, 6, 7, 9]) sameFn 8) 20 0 (0, 2) false 3).seen = some ([(0, 2), (2, 5)], false) := by decide +kernel
example : (retryC (chunkByC (elementsC (τ := Nat) [1, 3, 4, 6, 6, 7, 9]) sameFn 8) 20 1 (0, 2) false 3).seen = some ([(0, 2), (2, 5), (5, 7)], true) := by decide +kernel

/-- Joined ranges; the predicate throws at the fifth call. -/
def joinedOdd : PipeC Nat Nat := .join [0, 0] (.filter
  { run := fun a t => (if t = 4 then none else some (decide (a.length % 2 = 1)), t + 1)
    value := fun a => decide (a.length % 2 = 1)
    agrees := fun a t b h => by
      dsimp only at h
      split at h
      · exact absurd h (by simp)
      · exact (Option.some.inj h).symm } (.elements [[], [1], [2, 3], [4, 5, 6], [7, 8], [9]]))

example : joinedOdd.Fits 9 := ⟨by simp [PipeC.Fits], by decide⟩

example : joinedOdd.seen 9 0 0 = some ([1, 0, 0, 4, 5, 6], false) := by decide +kernel
example : joinedOdd.seen 9 1 0 = some ([1, 0, 0, 4, 5, 6, 0, 0, 9], true) := by decide +kernel

/-- Beyond the last element there is nothing: an increment and a read there are undefined, and a loop is cut off only by its number of steps. -/
example : (elementsC (τ := Nat) [1, 2]).next 2 0 = .ub ∧ (elementsC (τ := Nat) [1, 2]).deref 2 0 = .ub := ⟨rfl, rfl⟩
example : loopC (elementsC (τ := Nat) [1, 2]) 4 0 false 0 = .more ∧ loopC (elementsC (τ := Nat) [1, 2]) 4 3 false 0 = .ub := ⟨rfl, rfl⟩

/-- The other views. -/
def zipOfParts : PipeC Nat (Nat × Nat) := .zip (.take 3 (.map tenFn (.elements [1, 2, 3, 4]))) (.drop 1 (.filter oddFn (.elements [1, 2, 3, 5, 6])))

example : zipOfParts.Fits 5 := by
  simp [zipOfParts, PipeC.Fits]

/-- The first loop is stopped when it looks for a third element. -/
example : zipOfParts.seen 5 0 0 = some ([(10, 3), (20, 5)], false) := by decide +kernel
example : zipOfParts.seen 5 1 0 = some ([(10, 3), (20, 5)], true) := by decide +kernel

end Verif.Views.Calling
