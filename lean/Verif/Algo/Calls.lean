import Mathlib.Data.Finset.Card
import Mathlib.Data.Nat.Size
import Verif.Algo.Merge

/-!
# How algorithms call the function objects they are given (C77)

The other files of this directory take predicates and comparisons to be mathematical functions. Here they are arbitrary function objects:
they may have state, answer as they like and throw. An algorithm is then the tree of the calls it makes: each call says what is in memory
at that moment (that is what an exception would leave behind) and how to go on for either answer. Running the tree with a function gives back
the model of the other files (`..._run`).

Function objects are passed by value in C++; the state meant here is what copies share (captured by reference).
-/

namespace Verif.Algo

/-- What an algorithm does from some moment on: return, or call the function object for `q` while `s` is in memory. -/
inductive Ask (S Q R : Type) where
  | done (r : R)
  | ask (s : S) (q : Q) (k : Bool → Ask S Q R)

namespace Ask

variable {S Q R R' τ : Type}

/-- Go on with what the first part returned. -/
def bind : Ask S Q R → (R → Ask S Q R') → Ask S Q R'
  | .done r, g => g r
  | .ask s q k, g => .ask s q fun b => (k b).bind g

/-- The result with a function that always gives the same answers. -/
def run (f : Q → Bool) : Ask S Q R → R
  | .done r => r
  | .ask _ q k => (k (f q)).run f

/-- How a run ends. -/
inductive Ending (S R : Type) where
  | returned (r : R)
  | threw (s : S)

/-- A run with any function object: in state `t` and called for `q` it throws or gives an answer and a new state. Also gives the calls that
were answered, and the answers. -/
def exec (f : τ → Q → Option (Bool × τ)) : τ → Ask S Q R → Ending S R × List (Q × Bool)
  | _, .done r => (.returned r, [])
  | t, .ask s q k =>
    match f t q with
    | none => (.threw s, [])
    | some (b, t') => let r := exec f t' (k b); (r.1, (q, b) :: r.2)

/-- The calls with a function that always gives the same answers. -/
def calls (f : Q → Bool) : Ask S Q R → List Q
  | .done _ => []
  | .ask _ q k => q :: (k (f q)).calls f

/-- With answers as in `can`: whenever the function object is called after the calls `h`, the memory is as in `snap`; whenever the algorithm
returns, `post` holds. -/
def Holds (can : Q → Bool → Prop) (snap : List (Q × Bool) → S → Prop) (post : List (Q × Bool) → R → Prop) : List (Q × Bool) → Ask S Q R → Prop
  | h, .done r => post h r
  | h, .ask s q k => snap h s ∧ ∀ b, can q b → (k b).Holds can snap post (h ++ [(q, b)])

variable {can : Q → Bool → Prop} {snap snap' : List (Q × Bool) → S → Prop}

theorem Holds.mono {post post' : List (Q × Bool) → R → Prop} (hs : ∀ h s, snap h s → snap' h s) (hp : ∀ h r, post h r → post' h r) :
    ∀ {t : Ask S Q R} {h : List (Q × Bool)}, t.Holds can snap post h → t.Holds can snap' post' h
  | .done _, _, H => hp _ _ H
  | .ask _ _ _, _, H => ⟨hs _ _ H.1, fun b hb => Holds.mono hs hp (H.2 b hb)⟩

theorem Holds.bind {post : List (Q × Bool) → R' → Prop} {g : R → Ask S Q R'} :
    ∀ {t : Ask S Q R} {h : List (Q × Bool)}, t.Holds can snap (fun h r => (g r).Holds can snap post h) h → (t.bind g).Holds can snap post h
  | .done _, _, H => H
  | .ask _ _ _, _, H => ⟨H.1, fun b hb => Holds.bind (H.2 b hb)⟩

/-- A run that ended as described by `snap` (the memory at an exception) and `post` (the result), given the calls that were made. -/
def Ends (snap : List (Q × Bool) → S → Prop) (post : List (Q × Bool) → R → Prop) (x : Ending S R × List (Q × Bool)) : Prop :=
  match x.1 with
  | .returned r => post x.2 r
  | .threw s => snap x.2 s

/-- `Holds` is about every function object, whatever it does. -/
theorem Holds.exec {post : List (Q × Bool) → R → Prop} {f : τ → Q → Option (Bool × τ)} (hf : ∀ t q b t', f t q = some (b, t') → can q b) :
    ∀ {a : Ask S Q R} {t : τ} {h : List (Q × Bool)}, a.Holds can snap post h →
      Ends (fun c s => snap (h ++ c) s) (fun c r => post (h ++ c) r) (a.exec f t)
  | .done r, t, h, H => by simpa [Ask.exec, Holds, Ends] using H
  | .ask s q k, t, h, H => by
    unfold Ask.exec
    cases e : f t q with
    | none => simpa [Ends] using H.1
    | some x =>
      obtain ⟨b, t'⟩ := x
      have := Holds.exec (f := f) hf (t := t') (H.2 b (hf _ _ _ _ e))
      simpa [Ends] using this

/-- Running with a function is one of the runs. -/
theorem exec_run (f : Q → Bool) : ∀ (a : Ask S Q R) (t : τ),
    a.exec (fun t q => some (f q, t)) t = (.returned (a.run f), (a.calls f).map fun q => (q, f q))
  | .done r, t => rfl
  | .ask s q k, t => by simp only [Ask.exec, exec_run f (k (f q)) t, run, calls, List.map_cons]

end Ask

/-! ### Programs -/

/-- An algorithm that can also go wrong (`none`). -/
def Prog (S Q R : Type) := Ask S Q (Option R)

namespace Prog

variable {S Q R R' : Type}

/-- Return a value. -/
protected def pure (r : R) : Prog S Q R := Ask.done (some r)

/-- Go on unless something has gone wrong. -/
protected def bind (t : Prog S Q R) (g : R → Prog S Q R') : Prog S Q R' :=
  Ask.bind t fun r => match r with | none => .done none | some x => g x

instance : Monad (Prog S Q) where
  pure := Prog.pure
  bind := Prog.bind

/-- Something that does not call the function object. -/
def lift (x : Option R) : Prog S Q R := Ask.done x

/-- Call the function object. -/
def call (s : S) (q : Q) : Prog S Q Bool := Ask.ask s q fun b => .done (some b)

/-- The result with a function that always gives the same answers. -/
def run (f : Q → Bool) (t : Prog S Q R) : Option R := Ask.run f t

@[simp] theorem run_pure (f : Q → Bool) (r : R) : (pure r : Prog S Q R).run f = some r := rfl

@[simp] theorem run_lift (f : Q → Bool) (x : Option R) : (lift x : Prog S Q R).run f = x := rfl

@[simp] theorem run_call (f : Q → Bool) (s : S) (q : Q) : (call s q).run f = some (f q) := rfl

theorem run_bind' (f : Q → Bool) (g : R → Prog S Q R') : ∀ (t : Ask S Q (Option R)),
    Ask.run f (Prog.bind t g) = (Ask.run f t).bind fun x => (g x).run f
  | .done none => rfl
  | .done (some x) => rfl
  | .ask s q k => run_bind' f g (k (f q))

@[simp] theorem run_bind (f : Q → Bool) (g : R → Prog S Q R') (t : Prog S Q R) : (t >>= g).run f = (t.run f).bind fun x => (g x).run f :=
  run_bind' f g t

/-- The program never goes wrong, with answers as in `can`; see `Ask.Holds`. -/
def Safe (can : Q → Bool → Prop) (snap : List (Q × Bool) → S → Prop) (post : List (Q × Bool) → R → Prop) (h : List (Q × Bool)) (t : Prog S Q R) : Prop :=
  Ask.Holds can snap (fun h r => ∃ x, r = some x ∧ post h x) h t

variable {can : Q → Bool → Prop} {snap : List (Q × Bool) → S → Prop} {post : List (Q × Bool) → R → Prop} {h : List (Q × Bool)}

theorem Safe.pure {r : R} (hp : post h r) : Safe can snap post h (Pure.pure r : Prog S Q R) := ⟨r, rfl, hp⟩

theorem Safe.lift {x : Option R} {r : R} (hx : x = some r) (hp : post h r) : Safe can snap post h (Prog.lift x) := ⟨r, hx, hp⟩

theorem Safe.bind {post : List (Q × Bool) → R' → Prop} {g : R → Prog S Q R'} {t : Prog S Q R}
    (H : Safe can snap (fun h r => Safe can snap post h (g r)) h t) : Safe can snap post h (t >>= g) := by
  refine Ask.Holds.bind (Ask.Holds.mono (fun _ _ a => a) ?_ H)
  rintro h r ⟨x, rfl, hx⟩
  exact hx

theorem Safe.call {post : List (Q × Bool) → Bool → Prop} {s : S} {q : Q} (hs : snap h s) (hp : ∀ b, can q b → post (h ++ [(q, b)]) b) :
    Safe can snap post h (Prog.call s q) := ⟨hs, fun b hb => ⟨b, rfl, hp b hb⟩⟩

theorem Safe.mono {post' : List (Q × Bool) → R → Prop} {t : Prog S Q R} (H : Safe can snap post h t) (hp : ∀ h r, post h r → post' h r) :
    Safe can snap post' h t :=
  Ask.Holds.mono (fun _ _ a => a) (fun h r ⟨x, e, hx⟩ => ⟨x, e, hp h x hx⟩) H

theorem Safe.monoSnap {snap' : List (Q × Bool) → S → Prop} {t : Prog S Q R} (H : Safe can snap post h t) (hs : ∀ h s, snap h s → snap' h s) :
    Safe can snap' post h t :=
  Ask.Holds.mono hs (fun h r a => a) H

/-- What a safe program does with any function object. -/
theorem Safe.exec {τ : Type} {f : τ → Q → Option (Bool × τ)} (hf : ∀ t q b t', f t q = some (b, t') → can q b) {a : Prog S Q R}
    (H : Safe can snap post [] a) (t : τ) : Ask.Ends snap (fun c r => ∃ x, r = some x ∧ post c x) (Ask.exec f t a) := by
  have := Ask.Holds.exec (f := f) hf (t := t) H
  simpa using this

/-- What happens with every function object, whatever its state and answers and whether or not it throws: the program does not go wrong, the
result is as in `post`, and an exception leaves the memory as in `snap`, given the calls that were answered before. -/
def Always (snap : List (Q × Bool) → S → Prop) (post : List (Q × Bool) → R → Prop) (a : Prog S Q R) : Prop :=
  ∀ (τ : Type) (f : τ → Q → Option (Bool × τ)) (t : τ), Ask.Ends snap (fun c r => ∃ x, r = some x ∧ post c x) (Ask.exec f t a)

theorem Safe.always {snap' : List (Q × Bool) → S → Prop} {post' : List (Q × Bool) → R → Prop} {a : Prog S Q R}
    (H : Safe (fun _ _ => True) snap post [] a) (hs : ∀ h s, snap h s → snap' h s) (hp : ∀ h r, post h r → post' h r) : Always snap' post' a :=
  fun _ _ t => ((H.mono hp).monoSnap hs).exec (fun _ _ _ _ _ => trivial) t

/-- In particular with a function. -/
theorem Always.function {a : Ask S Q (Option R)} (H : Always snap post a) (f : Q → Bool) :
    ∃ x, a.run f = some x ∧ post ((a.calls f).map fun q => (q, f q)) x := by
  have h := H Unit (fun t q => some (f q, t)) ()
  rw [Ask.exec_run f a ()] at h
  exact h

end Prog

/-! ## The model -/

variable {α β S Q : Type}

/-- `std::not_fn` of the function object. -/
def notFn (p : α → Prog S Q Bool) (x : α) : Prog S Q Bool := do
  let b ← p x
  pure !b

/-- The loop of `find_if` with `n` elements to go (`algorithms/find.cpp` 28-33). -/
def findIfLoopA (m : Mem α) (p : α → Prog S Q Bool) : Nat → Nat → Prog S Q Nat
  | 0, first => pure first
  | n + 1, first => do
    let v ← .lift (m first)
    let b ← p v
    if b then pure first else findIfLoopA m p n (first + 1)

/-- `find_if` (`algorithms/find.cpp` 26-34). -/
def findIfA (m : Mem α) (p : α → Prog S Q Bool) (first last : Nat) : Prog S Q Nat :=
  if first ≤ last then findIfLoopA m p (last - first) first else .lift none

/-- `find_if_not` (`algorithms/find.cpp` 65-68). -/
def findIfNotA (m : Mem α) (p : α → Prog S Q Bool) (first last : Nat) : Prog S Q Nat := findIfA m (notFn p) first last

/-- The loop of `find_last_if`, `it` being `n` elements after `first` (`algorithms/find.cpp` 47-53). -/
def findLastIfLoopA (m : Mem α) (p : α → Prog S Q Bool) (first last : Nat) : Nat → Prog S Q Nat
  | 0 => pure last
  | n + 1 => do
    let v ← .lift (m (first + n))
    let b ← p v
    if b then pure (first + n) else findLastIfLoopA m p first last n

/-- `find_last_if` (`algorithms/find.cpp` 45-54). -/
def findLastIfA (m : Mem α) (p : α → Prog S Q Bool) (first last : Nat) : Prog S Q Nat :=
  if first ≤ last then findLastIfLoopA m p first last (last - first) else .lift none

/-- `all` (`algorithms/all_any_none.cpp` 26-28). -/
def allA (m : Mem α) (p : α → Prog S Q Bool) (first last : Nat) : Prog S Q Bool := do
  let it ← findIfNotA m p first last
  pure (it == last)

/-- `any` (`algorithms/all_any_none.cpp` 55-57). -/
def anyA (m : Mem α) (p : α → Prog S Q Bool) (first last : Nat) : Prog S Q Bool := do
  let it ← findIfA m p first last
  pure (it != last)

/-- `none` (`algorithms/all_any_none.cpp` 84-86). -/
def noneA (m : Mem α) (p : α → Prog S Q Bool) (first last : Nat) : Prog S Q Bool := do
  let it ← findIfA m p first last
  pure (it == last)

/-- The loop of `count_if` with `n` elements to go (`algorithms/count.cpp` 25-30). -/
def countIfLoopA (m : Mem α) (p : α → Prog S Q Bool) : Nat → Nat → Nat → Prog S Q Nat
  | 0, _, sum => pure sum
  | n + 1, it, sum => do
    let v ← .lift (m it)
    let b ← p v
    countIfLoopA m p n (it + 1) (if b then sum + 1 else sum)

/-- `count_if` (`algorithms/count.cpp` 22-31). -/
def countIfA (m : Mem α) (p : α → Prog S Q Bool) (first last : Nat) : Prog S Q Nat :=
  if first ≤ last then countIfLoopA m p (last - first) first 0 else .lift none

/-- The loop of `mismatch` with `n1` and `n2` elements to go (`algorithms/mismatch.cpp` 30-34). -/
def mismatchLoopA (m1 : Mem α) (m2 : Mem β) (p : α → β → Prog S Q Bool) : Nat → Nat → Nat → Nat → Prog S Q (Nat × Nat)
  | n1 + 1, n2 + 1, it1, it2 => do
    let a ← .lift (m1 it1)
    let b ← .lift (m2 it2)
    let r ← p a b
    if r then mismatchLoopA m1 m2 p n1 n2 (it1 + 1) (it2 + 1) else pure (it1, it2)
  | _, _, it1, it2 => pure (it1, it2)

/-- `mismatch` (`algorithms/mismatch.cpp` 20-35). -/
def mismatchA (m1 : Mem α) (m2 : Mem β) (p : α → β → Prog S Q Bool) (first1 last1 first2 last2 : Nat) : Prog S Q (Nat × Nat) :=
  if first1 ≤ last1 ∧ first2 ≤ last2 then mismatchLoopA m1 m2 p (last1 - first1) (last2 - first2) first1 first2 else .lift none

/-- The loop of `min_element` with `n` elements to go (`algorithms/minmax_element.cpp` 32-37). -/
def minElementLoopA (m : Mem α) (lt : α → α → Prog S Q Bool) : Nat → Nat → Nat → Prog S Q Nat
  | 0, smallest, _ => pure smallest
  | n + 1, smallest, it => do
    let v ← .lift (m it)
    let s ← .lift (m smallest)
    let b ← lt v s
    minElementLoopA m lt n (if b then it else smallest) (it + 1)

/-- `min_element` (`algorithms/minmax_element.cpp` 25-38). -/
def minElementA (m : Mem α) (lt : α → α → Prog S Q Bool) (first last : Nat) : Prog S Q Nat :=
  if first = last then pure first
  else if first < last then minElementLoopA m lt (last - first - 1) first (first + 1) else .lift none

/-- `max_element` (`algorithms/minmax_element.cpp` 44-49). -/
def maxElementA (m : Mem α) (gt : α → α → Prog S Q Bool) (first last : Nat) : Prog S Q Nat :=
  minElementA m (fun lhs rhs => notFn (fun x => gt x lhs) rhs) first last

/-- `is_partitioned` (`algorithms/partition.cpp` 31-36). -/
def isPartitionedA (m : Mem α) (p : α → Prog S Q Bool) (first last : Nat) : Prog S Q Bool := do
  let it ← findIfNotA m p first last
  let r ← findIfA m p it last
  pure (r == last)

/-- The loop of `partition_point` (`algorithms/partition.cpp` 44-55). -/
def partitionPointLoopA (m : Mem α) (p : α → Prog S Q Bool) (first count : Nat) : Prog S Q Nat :=
  if count = 0 then pure first
  else do
    let v ← .lift (m (first + count / 2))
    let b ← p v
    if b then partitionPointLoopA m p (first + count / 2 + 1) (count - (count / 2 + 1))
    else partitionPointLoopA m p first (count / 2)
termination_by count
decreasing_by all_goals omega

/-- `partition_point` (`algorithms/partition.cpp` 38-57). -/
def partitionPointA (m : Mem α) (p : α → Prog S Q Bool) (first last : Nat) : Prog S Q Nat :=
  if first ≤ last then partitionPointLoopA m p first (last - first) else .lift none

/-- `lower_bound` (`algorithms/binary_search.cpp` 22-24); `cmp` is `cmp(element, value)`. -/
def lowerBoundA (m : Mem α) (cmp : α → Prog S Q Bool) (first last : Nat) : Prog S Q Nat := partitionPointA m cmp first last

/-- `upper_bound` (`algorithms/binary_search.cpp` 32-34); `cmp'` is `cmp(value, element)`. -/
def upperBoundA (m : Mem α) (cmp' : α → Prog S Q Bool) (first last : Nat) : Prog S Q Nat := partitionPointA m (notFn cmp') first last

/-- `equal_range` (`algorithms/binary_search.cpp` 43-49). -/
def equalRangeA (m : Mem α) (cmp cmp' : α → Prog S Q Bool) (first last : Nat) : Prog S Q (Nat × Nat) := do
  let it ← lowerBoundA m cmp first last
  let up ← upperBoundA m cmp' it last
  pure (it, up)

/-- `binary_search` (`algorithms/binary_search.cpp` 59-62). -/
def binarySearchA (m : Mem α) (cmp cmp' : α → Prog S Q Bool) (first last : Nat) : Prog S Q Bool := do
  let it ← lowerBoundA m cmp first last
  if it = last then pure false
  else do
    let v ← .lift (m it)
    notFn cmp' v

/-- The loop of `is_sorted` with `n` elements to go (`is_sorted.cpp` 25-37). -/
def isSortedLoopA (m : Mem α) (lt : α → α → Prog S Q Bool) : Nat → Nat → Nat → Prog S Q Bool
  | 0, _, _ => pure true
  | n + 1, first, next => do
    let y ← .lift (m next)
    let x ← .lift (m first)
    let b ← lt y x
    if b then pure false else isSortedLoopA m lt n next (next + 1)

/-- `is_sorted` (`is_sorted.cpp` 21-40). -/
def isSortedA (m : Mem α) (lt : α → α → Prog S Q Bool) (first n : Nat) : Prog S Q Bool :=
  if n = 0 then pure true else isSortedLoopA m lt (n - 1) first (first + 1)

/-! ## With a function, this is the model of the other files -/

section Run

variable {f : Q → Bool}

theorem run_ite {R : Type} {c : Prop} [Decidable c] (a b : Prog S Q R) : (if c then a else b).run f = if c then a.run f else b.run f := by
  split <;> rfl

theorem notFn_run {p : α → Prog S Q Bool} {g : α → Bool} (hp : ∀ x, (p x).run f = some (g x)) (x : α) : (notFn p x).run f = some !(g x) := by
  simp [notFn, hp]

theorem findIfLoopA_run {m : Mem α} {p : α → Prog S Q Bool} {g : α → Bool} (hp : ∀ x, (p x).run f = some (g x)) : ∀ n first,
    (findIfLoopA m p n first).run f = findIfLoop m g n first
  | 0, first => rfl
  | n + 1, first => by
    simp [findIfLoopA, findIfLoop, hp, run_ite, findIfLoopA_run hp n]

theorem findIfA_run {m : Mem α} {p : α → Prog S Q Bool} {g : α → Bool} (hp : ∀ x, (p x).run f = some (g x)) (first last : Nat) :
    (findIfA m p first last).run f = findIf m g first last := by
  simp [findIfA, findIf, run_ite, findIfLoopA_run hp]

theorem findIfNotA_run {m : Mem α} {p : α → Prog S Q Bool} {g : α → Bool} (hp : ∀ x, (p x).run f = some (g x)) (first last : Nat) :
    (findIfNotA m p first last).run f = findIfNot m g first last := findIfA_run (notFn_run hp) first last

theorem findLastIfLoopA_run {m : Mem α} {p : α → Prog S Q Bool} {g : α → Bool} (hp : ∀ x, (p x).run f = some (g x)) {first last : Nat} : ∀ n,
    (findLastIfLoopA m p first last n).run f = findLastIfLoop m g first last n
  | 0 => rfl
  | n + 1 => by simp [findLastIfLoopA, findLastIfLoop, hp, run_ite, findLastIfLoopA_run hp n]

theorem findLastIfA_run {m : Mem α} {p : α → Prog S Q Bool} {g : α → Bool} (hp : ∀ x, (p x).run f = some (g x)) (first last : Nat) :
    (findLastIfA m p first last).run f = findLastIf m g first last := by
  simp [findLastIfA, findLastIf, run_ite, findLastIfLoopA_run hp]

theorem allA_run {m : Mem α} {p : α → Prog S Q Bool} {g : α → Bool} (hp : ∀ x, (p x).run f = some (g x)) (first last : Nat) :
    (allA m p first last).run f = allOf m g first last := by simp [allA, allOf, findIfNotA_run hp]

theorem anyA_run {m : Mem α} {p : α → Prog S Q Bool} {g : α → Bool} (hp : ∀ x, (p x).run f = some (g x)) (first last : Nat) :
    (anyA m p first last).run f = anyOf m g first last := by simp [anyA, anyOf, findIfA_run hp]

theorem noneA_run {m : Mem α} {p : α → Prog S Q Bool} {g : α → Bool} (hp : ∀ x, (p x).run f = some (g x)) (first last : Nat) :
    (noneA m p first last).run f = noneOf m g first last := by simp [noneA, noneOf, findIfA_run hp]

theorem countIfLoopA_run {m : Mem α} {p : α → Prog S Q Bool} {g : α → Bool} (hp : ∀ x, (p x).run f = some (g x)) : ∀ n it sum,
    (countIfLoopA m p n it sum).run f = countIfLoop m g n it sum
  | 0, _, _ => rfl
  | n + 1, _, _ => by simp [countIfLoopA, countIfLoop, hp, countIfLoopA_run hp n]

theorem countIfA_run {m : Mem α} {p : α → Prog S Q Bool} {g : α → Bool} (hp : ∀ x, (p x).run f = some (g x)) (first last : Nat) :
    (countIfA m p first last).run f = countIf m g first last := by simp [countIfA, countIf, run_ite, countIfLoopA_run hp]

theorem mismatchLoopA_run {m1 : Mem α} {m2 : Mem β} {p : α → β → Prog S Q Bool} {g : α → β → Bool} (hp : ∀ x y, (p x y).run f = some (g x y)) :
    ∀ n1 n2 it1 it2, (mismatchLoopA m1 m2 p n1 n2 it1 it2).run f = mismatchLoop m1 m2 g n1 n2 it1 it2
  | 0, 0, _, _ => rfl
  | 0, _ + 1, _, _ => rfl
  | _ + 1, 0, _, _ => rfl
  | n1 + 1, n2 + 1, _, _ => by simp [mismatchLoopA, mismatchLoop, hp, run_ite, mismatchLoopA_run hp n1 n2]

theorem mismatchA_run {m1 : Mem α} {m2 : Mem β} {p : α → β → Prog S Q Bool} {g : α → β → Bool} (hp : ∀ x y, (p x y).run f = some (g x y))
    (first1 last1 first2 last2 : Nat) : (mismatchA m1 m2 p first1 last1 first2 last2).run f = mismatch m1 m2 g first1 last1 first2 last2 := by
  simp [mismatchA, mismatch, run_ite, mismatchLoopA_run hp]

theorem minElementLoopA_run {m : Mem α} {lt : α → α → Prog S Q Bool} {g : α → α → Bool} (hp : ∀ x y, (lt x y).run f = some (g x y)) : ∀ n a b,
    (minElementLoopA m lt n a b).run f = minElementLoop m g n a b
  | 0, _, _ => rfl
  | n + 1, _, _ => by simp [minElementLoopA, minElementLoop, hp, minElementLoopA_run hp n]

theorem minElementA_run {m : Mem α} {lt : α → α → Prog S Q Bool} {g : α → α → Bool} (hp : ∀ x y, (lt x y).run f = some (g x y)) (first last : Nat) :
    (minElementA m lt first last).run f = minElement m g first last := by
  simp [minElementA, minElement, run_ite, minElementLoopA_run hp]

theorem maxElementA_run {m : Mem α} {gt : α → α → Prog S Q Bool} {g : α → α → Bool} (hp : ∀ x y, (gt x y).run f = some (g x y)) (first last : Nat) :
    (maxElementA m gt first last).run f = maxElement m g first last :=
  minElementA_run (fun x y => notFn_run (fun z => hp z x) y) first last

theorem isPartitionedA_run {m : Mem α} {p : α → Prog S Q Bool} {g : α → Bool} (hp : ∀ x, (p x).run f = some (g x)) (first last : Nat) :
    (isPartitionedA m p first last).run f = isPartitioned m g first last := by
  simp [isPartitionedA, isPartitioned, findIfA_run hp, findIfNotA_run hp]

theorem partitionPointLoopA_run {m : Mem α} {p : α → Prog S Q Bool} {g : α → Bool} (hp : ∀ x, (p x).run f = some (g x)) (first count : Nat) :
    (partitionPointLoopA m p first count).run f = partitionPointLoop m g first count := by
  induction count using Nat.strongRecOn generalizing first with
  | _ count ih =>
    rw [partitionPointLoopA, partitionPointLoop]
    split
    · rfl
    · cases m (first + count / 2) with
      | none => rfl
      | some v =>
        simp only [Prog.run_bind, Prog.run_lift, Option.bind_some, hp, run_ite]
        rw [ih _ (by omega), ih _ (by omega)]

theorem partitionPointA_run {m : Mem α} {p : α → Prog S Q Bool} {g : α → Bool} (hp : ∀ x, (p x).run f = some (g x)) (first last : Nat) :
    (partitionPointA m p first last).run f = partitionPoint m g first last := by
  simp [partitionPointA, partitionPoint, run_ite, partitionPointLoopA_run hp]

theorem equalRangeA_run {κ : Type} {m : Mem α} {cmp cmp' : α → Prog S Q Bool} {c : α → κ → Bool} {c' : κ → α → Bool} {value : κ}
    (hc : ∀ x, (cmp x).run f = some (c x value)) (hc' : ∀ x, (cmp' x).run f = some (c' value x)) (first last : Nat) :
    (equalRangeA m cmp cmp' first last).run f = equalRange m c c' first last value := by
  simp [equalRangeA, equalRange, lowerBoundA, upperBoundA, lowerBound, upperBound, partitionPointA_run hc, partitionPointA_run (notFn_run hc')]

theorem binarySearchA_run {κ : Type} {m : Mem α} {cmp cmp' : α → Prog S Q Bool} {c : α → κ → Bool} {c' : κ → α → Bool} {value : κ}
    (hc : ∀ x, (cmp x).run f = some (c x value)) (hc' : ∀ x, (cmp' x).run f = some (c' value x)) (first last : Nat) :
    (binarySearchA m cmp cmp' first last).run f = binarySearch m c c' first last value := by
  simp [binarySearchA, binarySearch, lowerBoundA, lowerBound, partitionPointA_run hc, run_ite, notFn_run hc']

theorem isSortedLoopA_run {m : Mem α} {lt : α → α → Prog S Q Bool} {g : α → α → Bool} (hp : ∀ x y, (lt x y).run f = some (g x y)) : ∀ n a b,
    (isSortedLoopA m lt n a b).run f = isSortedLoop m g n a b
  | 0, _, _ => rfl
  | n + 1, _, _ => by simp [isSortedLoopA, isSortedLoop, hp, run_ite, isSortedLoopA_run hp n]

theorem isSortedA_run {m : Mem α} {lt : α → α → Prog S Q Bool} {g : α → α → Bool} (hp : ∀ x y, (lt x y).run f = some (g x y)) (first n : Nat) :
    (isSortedA m lt first n).run f = isSorted m g first n := by
  simp [isSortedA, isSorted, run_ite, isSortedLoopA_run hp]

end Run

end Verif.Algo
