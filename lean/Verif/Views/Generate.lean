import Verif.Views.Basic

/-!
# Ranges that call a function for their elements (property C61)

`generate`, `generate_n`, `generate_until`, `transform_non_idempotent`, `remove_none` and `filter` over ranges that can be iterated once.
Obtaining an element has an effect on a state `γ`: what the function has captured, and everything an observer could see of its calls.
-/

namespace Verif.Views

variable {γ δ σ ρ τ : Type}

/-- Evaluation of an expression with an effect on the state. -/
inductive Run (γ α : Type) where
  | val (x : α) (g : γ)
  | exn (g : γ)
  | ub
deriving DecidableEq

/-- An input iterator. Comparing it with the end has no effect. -/
structure Inp (γ σ ρ : Type) where
  atEnd : σ → γ → Bool
  deref : σ → γ → Run γ ρ
  next : σ → γ → Run γ σ

/-- What a loop over a range has seen, and how it ended. -/
inductive Seen (γ ρ : Type) where
  | done (xs : List ρ) (g : γ)
  | exn (xs : List ρ) (g : γ)
  | ub
deriving DecidableEq

namespace Seen

/-- An element that was seen before the others. -/
def cons (x : ρ) : Seen γ ρ → Seen γ ρ
  | done xs g => done (x :: xs) g
  | exn xs g => exn (x :: xs) g
  | ub => ub

/-- The same loop, seeing only part of the elements, changed by a function. -/
def filterMap (p : ρ → Option τ) : Seen γ ρ → Seen γ τ
  | done xs g => done (xs.filterMap p) g
  | exn xs g => exn (xs.filterMap p) g
  | ub => ub

end Seen

/-- `for (auto && x : range)` from an iterator on. `none` if it has not ended after that many steps. -/
def Inp.loop (r : Inp γ σ ρ) : Nat → σ → γ → Option (Seen γ ρ)
  | 0, _, _ => none
  | f + 1, s, g =>
    if r.atEnd s g then some (.done [] g)
    else
      match r.deref s g with
      | .ub => some .ub
      | .exn g' => some (.exn [] g')
      | .val x g' =>
        match r.next s g' with
        | .ub => some .ub
        | .exn g'' => some (.exn [x] g'')
        | .val s' g'' => (r.loop f s' g'').map (·.cons x)

/-- With `begin()`. -/
def Inp.loopFrom (r : Inp γ σ ρ) (fuel : Nat) (b : Run γ σ) : Option (Seen γ ρ) :=
  match b with
  | .ub => some .ub
  | .exn g => some (.exn [] g)
  | .val s g => r.loop fuel s g

/-! ## The models -/

/-- `generate_n_iterator` (algorithms/generate.cpp 103-142): the iterator is the number of remaining elements. -/
def generateN (f : γ → Run γ ρ) : Inp γ Nat ρ where
  atEnd k _ := k == 0
  deref _ g := f g
  next k g := if k = 0 then .ub else .val (k - 1) g

/-- `operator<=>` of that iterator and the sentinel (`algorithms/generate.cpp` 124-126). -/
def generateN.cmpEnd (k : Nat) : Ordering := compare k 0

/-- `generate_n::begin()` (`algorithms/generate.cpp` 226-237). -/
def generateN.first (n : Nat) (g : γ) : Run γ Nat := .val n g

/-- The state of `generate` (`algorithms/generate.cpp` 58-79): `m_cached` besides what the function works on. A moved-from value is still the value here: the loop
does not look at it again. -/
structure Cached (γ ρ : Type) where
  inner : γ
  cached : Option ρ
deriving DecidableEq

/-- `generate::populate_cache` (`algorithms/generate.cpp` 74-76). -/
def generate.populate (f : γ → Run γ (Option ρ)) (g : Cached γ ρ) : Run (Cached γ ρ) Unit :=
  match f g.inner with
  | .ub => .ub
  | .exn g' => .exn { g with inner := g' }
  | .val x g' => .val () ⟨g', x⟩

/-- `generate_iterator` (`algorithms/generate.cpp` 26-56): the iterator is a reference to the range. -/
def generate (f : γ → Run γ (Option ρ)) : Inp (Cached γ ρ) Unit ρ where
  atEnd _ g := g.cached.isNone
  deref _ g :=
    match g.cached with
    | none => .ub
    | some x => .val x g
  next _ g := generate.populate f g

/-- `generate::begin()` (`algorithms/generate.cpp` 65-68). -/
def generate.first (f : γ → Run γ (Option ρ)) (g : Cached γ ρ) : Run (Cached γ ρ) Unit := generate.populate f g

/-- `generate_until_iterator` and `generate_until_sentinel` (algorithms/generate_until.cpp 23-66). -/
def generateUntil (f : γ → Run γ ρ) (isDone : γ → Bool) : Inp γ Unit ρ where
  atEnd _ g := isDone g
  deref _ g := f g
  next _ g := .val () g

/-- `transform_iterator_traits_non_idempotent` (algorithms/transform.cpp 56-84). -/
def transformInp (r : Inp γ σ ρ) (f : ρ → δ → Run δ τ) : Inp (γ × δ) σ τ where
  atEnd s g := r.atEnd s g.1
  deref s g :=
    match r.deref s g.1 with
    | .ub => .ub
    | .exn g' => .exn (g', g.2)
    | .val x g' =>
      match f x g.2 with
      | .ub => .ub
      | .exn d' => .exn (g', d')
      | .val y d' => .val y (g', d')
  next s g :=
    match r.next s g.1 with
    | .ub => .ub
    | .exn g' => .exn (g', g.2)
    | .val s' g' => .val s' (g', g.2)

/-- `remove_none_iterator::advance_to_first_value` (algorithms/remove_none.cpp 189-200). The iterator is the one of the range with the cached
value; whether the cache is a member of the iterator or of the range makes no difference for one iteration. -/
def removeNone.advance (r : Inp γ σ (Option ρ)) : Nat → σ → Option ρ → γ → Run γ (σ × Option ρ)
  | 0, _, _, _ => .ub
  | fuel + 1, s, c, g =>
    if r.atEnd s g then .val (s, c) g
    else
      match r.deref s g with
      | .ub => .ub
      | .exn g' => .exn g'
      | .val (some x) g' => .val (s, some x) g'
      | .val none g' =>
        match r.next s g' with
        | .ub => .ub
        | .exn g'' => .exn g''
        | .val s' g'' => removeNone.advance r fuel s' none g''

/-- `remove_none_iterator` (`algorithms/remove_none.cpp` 157-186). -/
def removeNone (r : Inp γ σ (Option ρ)) (fuel : Nat) : Inp γ (σ × Option ρ) ρ where
  atEnd s g := r.atEnd s.1 g
  deref s g :=
    match s.2 with
    | none => .ub
    | some x => .val x g
  next s g :=
    match r.next s.1 g with
    | .ub => .ub
    | .exn g' => .exn g'
    | .val s' g' => removeNone.advance r fuel s' s.2 g'

/-- `remove_none::begin()` (`algorithms/remove_none.cpp` 227-253) for a range whose `begin()` is `s`: the constructor of the iterator
(161-165). -/
def removeNone.first (r : Inp γ σ (Option ρ)) (fuel : Nat) (s : σ) (g : γ) : Run γ (σ × Option ρ) := removeNone.advance r fuel s none g

/-- `find_if` (algorithms/find.cpp) on such a range. -/
def findInp (r : Inp γ σ ρ) (p : ρ → Bool) : Nat → σ → γ → Run γ σ
  | 0, _, _ => .ub
  | fuel + 1, s, g =>
    if r.atEnd s g then .val s g
    else
      match r.deref s g with
      | .ub => .ub
      | .exn g' => .exn g'
      | .val x g' =>
        if p x then .val s g'
        else
          match r.next s g' with
          | .ub => .ub
          | .exn g'' => .exn g''
          | .val s' g'' => findInp r p fuel s' g''

/-- `filter_iterator_traits` (algorithms/filter.cpp 32-53). -/
def filterInp (r : Inp γ σ ρ) (p : ρ → Bool) (fuel : Nat) : Inp γ σ ρ where
  atEnd := r.atEnd
  deref := r.deref
  next s g :=
    if r.atEnd s g then .ub
    else
      match r.next s g with
      | .ub => .ub
      | .exn g' => .exn g'
      | .val s' g' => findInp r p fuel s' g'

/-- `filter_traits::get_begin` (`algorithms/filter.cpp` 63-69). -/
def filterInp.first (r : Inp γ σ ρ) (p : ρ → Bool) (fuel : Nat) (s : σ) (g : γ) : Run γ σ := findInp r p fuel s g

/-! ## Specification -/

/-- Calling a function `n` times. -/
def calls (f : γ → Run γ ρ) : Nat → γ → Seen γ ρ
  | 0, g => .done [] g
  | n + 1, g =>
    match f g with
    | .ub => .ub
    | .exn g' => .exn [] g'
    | .val x g' => (calls f n g').cons x

/-- Calling a function until it returns nothing: it has returned the `xs` and then nothing, leaving `g'`, or has thrown. -/
inductive CallsUntil (f : γ → Run γ (Option ρ)) : γ → Seen γ ρ → Prop where
  | stop {g g' : γ} : f g = .val none g' → CallsUntil f g (.done [] g')
  | throws {g g' : γ} : f g = .exn g' → CallsUntil f g (.exn [] g')
  | step {g g' : γ} {x : ρ} {e : Seen γ ρ} : f g = .val (some x) g' → CallsUntil f g' e → CallsUntil f g (e.cons x)

/-- Calling a function as long as a condition does not hold. -/
inductive CallsWhile (f : γ → Run γ ρ) (isDone : γ → Bool) : γ → Seen γ ρ → Prop where
  | stop {g : γ} : isDone g = true → CallsWhile f isDone g (.done [] g)
  | throws {g g' : γ} : isDone g = false → f g = .exn g' → CallsWhile f isDone g (.exn [] g')
  | step {g g' : γ} {x : ρ} {e : Seen γ ρ} : isDone g = false → f g = .val x g' → CallsWhile f isDone g' e → CallsWhile f isDone g (e.cons x)

/-- Calling a function with each of the values in turn. -/
def mapCalls (f : ρ → δ → Run δ τ) : List ρ → δ → Option (List τ × δ)
  | [], d => some ([], d)
  | x :: xs, d =>
    match f x d with
    | .val y d' => (mapCalls f xs d').map fun r => (y :: r.1, r.2)
    | _ => none

/-! ## Proofs -/

theorem loop_end {r : Inp γ σ ρ} {s : σ} {g : γ} (h : r.atEnd s g = true) (f : Nat) : r.loop (f + 1) s g = some (.done [] g) := by
  simp only [Inp.loop, h, if_true]

theorem loop_step {r : Inp γ σ ρ} {s s' : σ} {g g1 g2 : γ} {x : ρ} (h : r.atEnd s g = false) (h1 : r.deref s g = .val x g1)
    (h2 : r.next s g1 = .val s' g2) (f : Nat) : r.loop (f + 1) s g = (r.loop f s' g2).map (·.cons x) := by
  simp only [Inp.loop, h, h1, h2, Bool.false_eq_true, if_false]

/-- How a loop that is not undefined can go. -/
theorem loop_cases {r : Inp γ σ ρ} {f : Nat} {s : σ} {g : γ} {e : Seen γ ρ} (h : r.loop (f + 1) s g = some e) (hne : e ≠ .ub) :
    (r.atEnd s g = true ∧ e = .done [] g) ∨
    (r.atEnd s g = false ∧ ((∃ g', r.deref s g = .exn g' ∧ e = .exn [] g') ∨
      ∃ x g1, r.deref s g = .val x g1 ∧ ((∃ g', r.next s g1 = .exn g' ∧ e = .exn [x] g') ∨
        ∃ s' g2 e', r.next s g1 = .val s' g2 ∧ r.loop f s' g2 = some e' ∧ e = e'.cons x))) := by
  simp only [Inp.loop] at h
  cases ha : r.atEnd s g with
  | true => rw [ha] at h; simp only [if_true, Option.some.injEq] at h; exact .inl ⟨rfl, h.symm⟩
  | false =>
    rw [ha] at h
    simp only [Bool.false_eq_true, if_false] at h
    refine .inr ⟨rfl, ?_⟩
    cases hd : r.deref s g with
    | ub => rw [hd] at h; cases h; exact absurd rfl hne
    | exn g' => rw [hd] at h; cases h; exact .inl ⟨_, rfl, rfl⟩
    | val x g1 =>
      rw [hd] at h
      refine .inr ⟨x, g1, rfl, ?_⟩
      simp only at h
      cases hn : r.next s g1 with
      | ub => rw [hn] at h; cases h; exact absurd rfl hne
      | exn g' => rw [hn] at h; cases h; exact .inl ⟨_, rfl, rfl⟩
      | val s' g2 =>
        rw [hn] at h
        simp only [Option.map_eq_some_iff] at h
        obtain ⟨e', he, hx⟩ := h
        exact .inr ⟨s', g2, e', rfl, he, hx.symm⟩

/-! ## C61 -/

/-- C61, `generate_n(n, f)`: the loop sees what `n` calls of the function return, in order. The function is called exactly once for each
element and not after an exception. -/
theorem C61_generate_n (f : γ → Run γ ρ) : ∀ (n : Nat) (g : γ) (fuel : Nat), n < fuel →
    (generateN f).loopFrom fuel (generateN.first n g) = some (calls f n g)
  | _, _, 0, h => by omega
  | 0, g, fuel + 1, _ => rfl
  | n + 1, g, fuel + 1, h => by
    have ih := fun g' => C61_generate_n f n g' fuel (by omega)
    simp only [Inp.loopFrom, generateN.first] at ih ⊢
    show (match f g with
      | .ub => some .ub
      | .exn g' => some (.exn [] g')
      | .val x g' => ((generateN f).loop fuel n g').map (·.cons x)) = some (calls f (n + 1) g)
    simp only [calls]
    cases f g with
    | ub => rfl
    | exn g' => rfl
    | val x g' => simp only [ih, Option.map_some]

/-- C61, `generate(f)`: the loop sees what the function returns until it returns nothing; it is not called again afterwards. Whatever the
cache contained before makes no difference. -/
theorem C61_generate (f : γ → Run γ (Option ρ)) {g : γ} {e : Seen γ ρ} (h : CallsUntil f g e) (c : Option ρ) :
    ∃ fuel0, ∀ fuel, fuel0 < fuel →
      match e with
      | .done xs g' => (generate f).loopFrom fuel (generate.first f ⟨g, c⟩) = some (.done xs ⟨g', none⟩)
      | .exn xs g' => ∃ c', (generate f).loopFrom fuel (generate.first f ⟨g, c⟩) = some (.exn xs ⟨g', c'⟩)
      | .ub => False := by
  induction h generalizing c with
  | stop h =>
    refine ⟨0, fun fuel hf => ?_⟩
    obtain ⟨k, rfl⟩ : ∃ k, fuel = k + 1 := ⟨fuel - 1, by omega⟩
    simp only [Inp.loopFrom, generate.first, generate.populate, h]
    rfl
  | throws h =>
    refine ⟨0, fun fuel _ => ⟨c, ?_⟩⟩
    simp only [Inp.loopFrom, generate.first, generate.populate, h]
  | @step g g' x e h h2 ih =>
    obtain ⟨n, ih⟩ := ih (some x)
    refine ⟨n + 1, fun fuel hf => ?_⟩
    obtain ⟨k, rfl⟩ : ∃ k, fuel = k + 1 := ⟨fuel - 1, by omega⟩
    have ih := ih k (by omega)
    have unroll : ∀ c, (generate f).loopFrom (k + 1) (generate.first f ⟨g, c⟩) =
        match generate.populate f ⟨g', some x⟩ with
        | .ub => some .ub
        | .exn g'' => some (.exn [x] g'')
        | .val _ g'' => ((generate f).loop k () g'').map (·.cons x) := by
      intro c
      have e1 : generate.first f ⟨g, c⟩ = .val () ⟨g', some x⟩ := by simp only [generate.first, generate.populate, h]
      rw [e1]
      simp only [Inp.loopFrom, Inp.loop]
      rw [if_neg (show ¬ (generate f).atEnd () ⟨g', some x⟩ = true by simp [generate])]
      rw [show (generate f).deref () ⟨g', some x⟩ = .val x ⟨g', some x⟩ from rfl]
      simp only
      rw [show (generate f).next () ⟨g', some x⟩ = generate.populate f ⟨g', some x⟩ from rfl]
      cases generate.populate f ⟨g', some x⟩ <;> rfl
    cases e with
    | ub => exact ih
    | done xs g2 =>
      simp only [Seen.cons]
      rw [unroll]
      simp only [Inp.loopFrom, generate.first] at ih
      cases hp : generate.populate f ⟨g', some x⟩ with
      | ub => rw [hp] at ih; cases ih
      | exn q => rw [hp] at ih; cases ih
      | val u q => rw [hp] at ih; simp only at ih ⊢; rw [ih]; rfl
    | exn xs g2 =>
      simp only [Seen.cons]
      rw [unroll]
      obtain ⟨c', ih⟩ := ih
      refine ⟨c', ?_⟩
      simp only [Inp.loopFrom, generate.first] at ih
      cases hp : generate.populate f ⟨g', some x⟩ with
      | ub => rw [hp] at ih; cases ih
      | exn q => rw [hp] at ih; cases ih; rfl
      | val u q => rw [hp] at ih; simp only at ih ⊢; rw [ih]; rfl

/-- C61, `generate_until(f, done)`: the condition is checked before each call. -/
theorem C61_generate_until (f : γ → Run γ ρ) (isDone : γ → Bool) {g : γ} {e : Seen γ ρ} (h : CallsWhile f isDone g e) :
    ∃ fuel0, ∀ fuel, fuel0 < fuel → (generateUntil f isDone).loop fuel () g = some e := by
  induction h with
  | @stop g h =>
    refine ⟨0, fun fuel hf => ?_⟩
    obtain ⟨k, rfl⟩ : ∃ k, fuel = k + 1 := ⟨fuel - 1, by omega⟩
    simp [Inp.loop, generateUntil, h]
  | @throws g g' h h1 =>
    refine ⟨0, fun fuel hf => ?_⟩
    obtain ⟨k, rfl⟩ : ∃ k, fuel = k + 1 := ⟨fuel - 1, by omega⟩
    simp [Inp.loop, generateUntil, h, h1]
  | @step g g' x e h h1 _ ih =>
    obtain ⟨n, ih⟩ := ih
    refine ⟨n + 1, fun fuel hf => ?_⟩
    obtain ⟨k, rfl⟩ : ∃ k, fuel = k + 1 := ⟨fuel - 1, by omega⟩
    have := ih k (by omega)
    simp only [Inp.loop]
    rw [show (generateUntil f isDone).atEnd () g = false from h]
    rw [show (generateUntil f isDone).deref () g = .val x g' from h1]
    simp only [Bool.false_eq_true, if_false, generateUntil] at this ⊢
    rw [this]; rfl

/-- C61, `transform_non_idempotent(range, f)`: the function is called exactly once for each element of the range, in order, and the
underlying range is used as in a loop over it. -/
theorem C61_transform_non_idempotent (r : Inp γ σ ρ) (f : ρ → δ → Run δ τ) : ∀ (fuel : Nat) (s : σ) (g g' : γ) (xs : List ρ) (d d' : δ) (ys : List τ),
    r.loop fuel s g = some (.done xs g') → mapCalls f xs d = some (ys, d') →
    (transformInp r f).loop fuel s (g, d) = some (.done ys (g', d'))
  | 0, _, _, _, _, _, _, _, h, _ => by cases h
  | fuel + 1, s, g, g', xs, d, d', ys, h, hm => by
    rcases loop_cases h (by simp) with ⟨ha, he⟩ | ⟨ha, ⟨q, _, he⟩ | ⟨x, g1, hd, ⟨q, _, he⟩ | ⟨s', g2, e', hn, hl, he⟩⟩⟩
    · cases he
      simp only [mapCalls, Option.some.injEq, Prod.mk.injEq] at hm
      obtain ⟨rfl, rfl⟩ := hm
      exact loop_end (r := transformInp r f) (s := s) (g := (g, d)) ha fuel
    · cases he
    · cases he
    · cases e' with
      | ub => cases he
      | exn a b => cases he
      | done as ge =>
        simp only [Seen.cons, Seen.done.injEq] at he
        obtain ⟨rfl, rfl⟩ := he
        simp only [mapCalls] at hm
        cases hf : f x d with
        | ub => rw [hf] at hm; cases hm
        | exn q => rw [hf] at hm; cases hm
        | val y d1 =>
          rw [hf] at hm
          simp only [Option.map_eq_some_iff, Prod.mk.injEq, Prod.exists] at hm
          obtain ⟨ys', d2, hr, rfl, rfl⟩ := hm
          have ih := C61_transform_non_idempotent r f fuel s' g2 g' as d1 d2 ys' hl hr
          rw [loop_step (r := transformInp r f) (s := s) (g := (g, d)) (x := y) (g1 := (g1, d1)) (g2 := (g2, d1)) (s' := s') ha
            (by simp only [transformInp, hd, hf]) (by simp only [transformInp, hn]), ih]
          rfl

/-- Obtaining an element does not make the range end before it. -/
def Inp.Calm (r : Inp γ σ ρ) : Prop := ∀ s g x g', r.atEnd s g = false → r.deref s g = .val x g' → r.atEnd s g' = false

theorem removeNone_loop {r : Inp γ σ (Option ρ)} (hc : r.Calm) (N : Nat) : ∀ (fuel : Nat) (s : σ) (g : γ) (e : Seen γ (Option ρ)) (c : Option ρ)
    (k K : Nat), fuel ≤ N → r.loop fuel s g = some e → e ≠ .ub → fuel ≤ k → fuel ≤ K →
    (removeNone r N).loopFrom K (removeNone.advance r k s c g) = some (e.filterMap id)
  | 0, _, _, _, _, _, _, _, h, _, _, _ => by cases h
  | fuel + 1, s, g, e, c, k, K, hN, h, hne, hk, hK => by
    obtain ⟨k, rfl⟩ : ∃ j, k = j + 1 := ⟨k - 1, by omega⟩
    obtain ⟨K, rfl⟩ : ∃ j, K = j + 1 := ⟨K - 1, by omega⟩
    rcases loop_cases h hne with ⟨ha, he⟩ | ⟨ha, ⟨q, hd, he⟩ | ⟨x, g1, hd, ⟨q, hn, he⟩ | ⟨s', g2, e', hn, hl, he⟩⟩⟩
    · subst he
      rw [show removeNone.advance r (k + 1) s c g = .val (s, c) g by simp only [removeNone.advance, ha, if_true]]
      exact loop_end (r := removeNone r N) (s := (s, c)) ha K
    · subst he
      rw [show removeNone.advance r (k + 1) s c g = .exn q by simp only [removeNone.advance, ha, hd, Bool.false_eq_true, if_false]]
      rfl
    · subst he
      cases x with
      | none =>
        rw [show removeNone.advance r (k + 1) s c g = .exn q by simp only [removeNone.advance, ha, hd, hn, Bool.false_eq_true, if_false]]
        rfl
      | some x =>
        rw [show removeNone.advance r (k + 1) s c g = .val (s, some x) g1 by
          simp only [removeNone.advance, ha, hd, Bool.false_eq_true, if_false]]
        simp only [Inp.loopFrom, Inp.loop]
        rw [if_neg (show ¬ (removeNone r N).atEnd (s, some x) g1 = true by simp [removeNone, hc s g _ g1 ha hd])]
        simp only [removeNone, hn]
        rfl
    · subst he
      have hne' : e' ≠ .ub := by intro q; subst q; exact hne rfl
      cases x with
      | none =>
        rw [show removeNone.advance r (k + 1) s c g = removeNone.advance r k s' none g2 by
          simp only [removeNone.advance, ha, hd, hn, Bool.false_eq_true, if_false]]
        rw [removeNone_loop hc N fuel s' g2 e' none k (K + 1) (by omega) hl hne' (by omega) (by omega)]
        cases e' <;> rfl
      | some x =>
        rw [show removeNone.advance r (k + 1) s c g = .val (s, some x) g1 by
          simp only [removeNone.advance, ha, hd, Bool.false_eq_true, if_false]]
        have ih := removeNone_loop hc N fuel s' g2 e' (some x) N K (by omega) hl hne' (by omega) (by omega)
        simp only [Inp.loopFrom, Inp.loop]
        rw [if_neg (show ¬ (removeNone r N).atEnd (s, some x) g1 = true by simp [removeNone, hc s g _ g1 ha hd])]
        rw [show (removeNone r N).deref (s, some x) g1 = .val x g1 from rfl]
        simp only
        rw [show (removeNone r N).next (s, some x) g1 = removeNone.advance r N s' (some x) g2 by simp only [removeNone, hn]]
        simp only [Inp.loopFrom] at ih
        cases hadv : removeNone.advance r N s' (some x) g2 with
        | ub =>
          rw [hadv] at ih
          simp only [Option.some.injEq] at ih
          cases e' <;> first | exact absurd rfl hne' | cases ih
        | exn q =>
          rw [hadv] at ih
          simp only [Option.some.injEq] at ih
          cases e' <;> first | exact absurd rfl hne' | skip
          · cases ih
          · simp only [Seen.filterMap, Seen.exn.injEq] at ih
            obtain ⟨h1, rfl⟩ := ih
            simp only [Seen.cons, Seen.filterMap, List.filterMap_cons, id, ← h1]
        | val s2 q =>
          rw [hadv] at ih
          simp only at ih ⊢
          rw [ih]
          cases e' <;> rfl

/-- C61, `remove_none(range)`: iterating over it obtains every element of the range exactly once, as a loop over the range itself does, and
sees those that are present, in order.

Missing: ranges for which obtaining an element changes whether the end is reached (`C61_remove_none_violated`). -/
theorem C61_remove_none_partial {r : Inp γ σ (Option ρ)} (hc : r.Calm) {fuel : Nat} {s : σ} {g : γ} {e : Seen γ (Option ρ)}
    (h : r.loop fuel s g = some e) (hne : e ≠ .ub) {N : Nat} (hN : fuel ≤ N) :
    (removeNone r N).loopFrom N (removeNone.first r N s g) = some (e.filterMap id) :=
  removeNone_loop hc N fuel s g e none N N hN h hne hN hN

theorem calm_generateN (f : γ → Run γ ρ) : (generateN f).Calm := fun _ _ _ _ h _ => h

/-- C61, `remove_none(generate_n(n, f))`: `n` calls, of which the present results are seen. -/
theorem C61_remove_none_generate_n (f : γ → Run γ (Option ρ)) (n : Nat) (g : γ) (hne : calls f n g ≠ .ub) {N : Nat} (hN : n < N) :
    (removeNone (generateN f) N).loopFrom N (removeNone.first (generateN f) N n g) = some ((calls f n g).filterMap id) :=
  C61_remove_none_partial (calm_generateN f) (fuel := N) (C61_generate_n f n g N hN) hne (Nat.le_refl N)

/-- A function that counts: its calls return 0, 1, 2, ... -/
def counter : Nat → Run Nat Nat := fun g => .val g (g + 1)

/-- C61 is violated by `filter`: the condition is checked for one element and another one is seen. `filter(generate_n(4, counter), even)`
calls the function twice for each element that it keeps; what the loop sees is odd. -/
theorem C61_filter_violated :
    (generateN counter).loop 9 4 0 = some (.done [0, 1, 2, 3] 4) ∧
    (filterInp (generateN counter) (fun x => x % 2 == 0) 9).loopFrom 9 (filterInp.first (generateN counter) (fun x => x % 2 == 0) 9 4 0) =
      some (.done [1, 3, 5, 7] 8) := by
  constructor <;> rfl

/-- C61 is violated by `remove_none(generate_until(f, done))`: the last element is lost if obtaining it makes the condition true. -/
theorem C61_remove_none_violated :
    (generateUntil (fun g => (.val (some g) (g + 1) : Run Nat (Option Nat))) (fun g => g == 3)).loop 9 () 0 =
      some (.done [some 0, some 1, some 2] 3) ∧
    (removeNone (generateUntil (fun g => (.val (some g) (g + 1) : Run Nat (Option Nat))) (fun g => g == 3)) 9).loopFrom 9
      (removeNone.first (generateUntil (fun g => (.val (some g) (g + 1) : Run Nat (Option Nat))) (fun g => g == 3)) 9 () 0) =
      some (.done [0, 1] 3) := by
  constructor <;> rfl

/-- C61, the order of iterators and the end is the wrong way round for `generate_n`: an iterator that is not at the end is greater than the
end. -/
theorem C61_generate_n_order_violated (k : Nat) : generateN.cmpEnd k ≠ .lt ∧ (0 < k → generateN.cmpEnd k = .gt) := by
  constructor
  · simp only [generateN.cmpEnd, ne_eq, Nat.compare_eq_lt]; omega
  · intro h; simp only [generateN.cmpEnd, Nat.compare_eq_gt]; exact h

/-! ## Functions that can be called again -/

/-- `idempotent_generate_n_iterator` (algorithms/generate.cpp 144-208) for `indexed_generate_n` (274-295) of `n` elements with a size
type up to `most`: the iterator is the offset; the conversions of the offset are `assume_in_range`. The end is `begin() + size()`
(default_begin_end_size.cpp). `generate_n_idempotent` (generate.cpp 249-269) ignores the offset. -/
def indexedGenerate (most n : Nat) (f : Nat → ρ) : RA Nat ρ where
  atEnd k := .ok (k == n)
  deref k := if k < most then .ok (f k) else .ub
  next k := if k + 1 ≤ most then .ok (k + 1) else .ub
  eq a b := .ok (a == b)
  add k d := if 0 ≤ (k : Int) + d ∧ (k : Int) + d ≤ most then .ok ((k : Int) + d).toNat else .ub
  sub a b := .ok ((a : Int) - b)
  cmp a b := .ok (compare a b)

/-- `repeat_n(n, value)` (repeat_n.cpp 19-22). -/
def repeatN (most n : Nat) (x : ρ) : RA Nat ρ := indexedGenerate most n fun _ => x

/-- C61, `indexed_generate_n(n, f)` is a random access range of `f(0)`, ..., `f(n - 1)`. -/
theorem C61_indexed_generate_n {most n : Nat} (hn : n ≤ most) (f : Nat → ρ) :
    Indexed (indexedGenerate most n f) id ((List.range n).map f) where
  atEnd i hi := by simp only [indexedGenerate, id, List.length_map, List.length_range, beq_eq_decide]
  deref i hi := by
    simp only [List.length_map, List.length_range] at hi
    simp only [indexedGenerate, id, List.getElem_map, List.getElem_range]
    rw [if_pos (by omega)]
  next i hi := by
    simp only [List.length_map, List.length_range] at hi
    simp only [indexedGenerate, id]
    rw [if_pos (by omega)]
  eq i j hi hj := by simp only [indexedGenerate, id, beq_eq_decide]
  add i j hi hj := by
    simp only [List.length_map, List.length_range] at hi hj
    simp only [indexedGenerate, id]
    rw [if_pos (by omega)]
    congr 1; omega
  sub i j hi hj := rfl
  cmp i j hi hj := rfl

/-- C61, `repeat_n(n, value)` is a random access range of `n` times the value. -/
theorem C61_repeat_n {most n : Nat} (hn : n ≤ most) (x : ρ) : Indexed (repeatN most n x) id (List.replicate n x) := by
  have := C61_indexed_generate_n hn fun _ => x
  rwa [List.map_const', List.length_range] at this

/-! ### Examples -/

/-- A function that throws when it is called for the fourth time. -/
def thrower : Nat → Run Nat (Option Nat) := fun g => if g = 3 then .exn (g + 1) else .val (if g % 2 = 0 then some g else none) (g + 1)

example : calls thrower 3 0 = .done [some 0, none, some 2] 3 ∧ calls thrower 7 0 = .exn [some 0, none, some 2] 4 := ⟨rfl, rfl⟩

example : (removeNone (generateN thrower) 9).loopFrom 9 (removeNone.first (generateN thrower) 9 7 0) = some (.exn [0, 2] 4) := rfl

example : CallsUntil (fun g : Nat => (.val (if g < 2 then some g else none) (g + 1) : Run Nat (Option Nat))) 0 (.done [0, 1] 3) :=
  .step (e := .done [1] 3) rfl (.step (e := .done [] 3) rfl (.stop rfl))

example : CallsWhile counter (fun g => g == 2) 0 (.done [0, 1] 2) :=
  .step (e := .done [1] 2) rfl rfl (.step (e := .done [] 2) rfl rfl (.stop rfl))

example : (generateN counter).loop 9 2 5 = some (.done [5, 6] 7) ∧
    mapCalls (fun x d => (.val (x * 10 + d) (d + 1) : Run Nat Nat)) [5, 6] 0 = some ([50, 61], 2) := ⟨rfl, rfl⟩

end Verif.Views
