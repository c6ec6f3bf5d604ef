import Mathlib.Data.List.Basic

/-!
# Making arrays (C83)

`to_array.cpp`. The elements of the array are initialised one after the other from an iterator, or from one value. The model records what is done with the iterator and the
value, because ranges need not be able to give an element twice.
-/

namespace Verif.ToArray

variable {α : Type}

/-- What is done with an iterator. -/
inductive Event
  | begin
  | deref (position : Nat)
  | next (position : Nat)
  deriving DecidableEq, Repr

/-- A program that uses one iterator: `none` is undefined behaviour. -/
abbrev Run (R : Type) := Option (R × List Event)

/-- `begin(source)` of `to_array.cpp` 35. -/
def begin : Run Nat := some (0, [.begin])

/-- `*it` (`to_array.cpp` 37, 39), undefined at the end. -/
def deref (source : List α) (it : Nat) : Run α := (source[it]?).map fun x => (x, [.deref it])

/-- `++it` (`to_array.cpp` 37, 39), undefined at the end. -/
def next (source : List α) (it : Nat) : Run Nat := if it < source.length then some (it + 1, [.next it]) else none

/-- One after the other. -/
def andThen {R R' : Type} (a : Run R) (f : R → Run R') : Run R' :=
  a.bind fun r => (f r.1).map fun r' => (r'.1, r.2 ++ r'.2)

/-- `(static_cast<void>(indexes), *++it)...` (`to_array.cpp` 37, 39), for `n` indexes. The elements of a braced list are evaluated from left to right. -/
def rest (source : List α) : Nat → Nat → Run (List α)
  | 0, _ => some ([], [])
  | n + 1, it =>
    andThen (next source it) fun it =>
    andThen (deref source it) fun x =>
    andThen (rest source n it) fun xs =>
    some (x :: xs, [])

/-- `to_array` (`to_array.cpp` 28-58) of a range whose type says that it has `size` elements. Whether elements are copied or moved (37, 39) is not modelled. -/
def toArray (size : Nat) (source : List α) : Run (List α) :=
  if size = 0 then some ([], [])
  else
    andThen begin fun it =>
    andThen (deref source it) fun x =>
    andThen (rest source (size - 1) it) fun xs =>
    some (x :: xs, [])

/-- A variable: its value, or `none` if it was moved from. -/
abbrev Var (α : Type) := Option α

/-- The copies `(void(indexes), value)...` (`to_array.cpp` 70), for `n` indexes. -/
def copies (value : Var α) : Nat → List (Var α)
  | 0 => []
  | n + 1 => value :: copies value n

/-- The last element (`to_array.cpp` 70), and what is left of the variable. -/
def forward (rvalue : Bool) (value : Var α) : Var α × Var α := if rvalue then (value, none) else (value, value)

/-- `make_array_n` (`to_array.cpp` 60-72): the array and what is left of the argument. -/
def makeArrayN (size : Nat) (rvalue : Bool) (value : Var α) : List (Var α) × Var α :=
  if size = 0 then ([], value)
  else
    let xs := copies value (size - 1)
    let (x, value) := forward rvalue value
    (xs ++ [x], value)

/-! ## Properties -/

/-- What happens to the iterator for `n` further elements. -/
def steps (it : Nat) : Nat → List Event
  | 0 => []
  | n + 1 => .next it :: .deref (it + 1) :: steps (it + 1) n

theorem rest_eq (source : List α) : ∀ (n it : Nat), it + n < source.length → rest source n it = some ((source.drop (it + 1)).take n, steps it n)
  | 0, it, _ => by simp [rest, steps]
  | n + 1, it, h => by
    have hd : source.drop (it + 1) = source[it + 1] :: source.drop (it + 1 + 1) := List.drop_eq_getElem_cons (by omega)
    have ih := rest_eq source n (it + 1) (by omega)
    rw [rest, next, if_pos (by omega), hd, List.take_succ_cons]
    simp [andThen, deref, List.getElem?_eq_getElem (show it + 1 < source.length by omega), ih, steps]

theorem rest_none (source : List α) : ∀ (n it : Nat), it < source.length → source.length ≤ it + n → rest source n it = none
  | 0, it, h1, h2 => by omega
  | n + 1, it, h1, h2 => by
    rw [rest, next, if_pos h1]
    simp only [andThen, Option.bind_some, deref]
    by_cases h : it + 1 < source.length
    · have := rest_none source n (it + 1) h (by omega)
      simp [List.getElem?_eq_getElem h, this]
    · simp [List.getElem?_eq_none (show source.length ≤ it + 1 by omega)]

theorem steps_deref (n it : Nat) : (steps it n).filterMap (fun | .deref i => some i | _ => none) = List.range' (it + 1) n := by
  induction n generalizing it with
  | zero => rfl
  | succ n ih => simp [steps, List.filterMap_cons, ih, List.range'_succ]

theorem steps_next (n it : Nat) : (steps it n).filterMap (fun | .next i => some i | _ => none) = List.range' it n := by
  induction n generalizing it with
  | zero => rfl
  | succ n ih => simp [steps, List.filterMap_cons, ih, List.range'_succ]

theorem steps_begin (n it : Nat) : (steps it n).count .begin = 0 := by
  induction n generalizing it with
  | zero => rfl
  | succ n ih => simp [steps, ih]

theorem toArray_cons (x : α) (xs : List α) (n : Nat) (h : n ≤ xs.length) : toArray (n + 1) (x :: xs) = some (x :: xs.take n, .begin :: .deref 0 :: steps 0 n) := by
  rw [toArray, if_neg (by omega)]
  simp [andThen, begin, deref, rest_eq (x :: xs) n 0 (by simp; omega)]

/-- **C83**: `to_array` of a range of the size that its type says gives its elements in their order. It calls `begin` once (if there are elements), obtains each element
exactly once, from the first to the last, and goes to no position after the last. -/
theorem C83_to_array (source : List α) :
    ∃ events, toArray source.length source = some (source, events) ∧
      events.filterMap (fun | .deref i => some i | _ => none) = List.range source.length ∧
      events.filterMap (fun | .next i => some i | _ => none) = List.range (source.length - 1) ∧
      events.count .begin = if source.length = 0 then 0 else 1 := by
  cases source with
  | nil => exact ⟨[], rfl, rfl, rfl, rfl⟩
  | cons x xs =>
    refine ⟨_, by rw [List.length_cons, toArray_cons x xs _ (Nat.le_refl _), List.take_length], ?_, ?_, ?_⟩
    · simp [List.filterMap_cons, steps_deref, List.range_eq_range', List.range'_succ]
    · simp [List.filterMap_cons, steps_next, List.range_eq_range']
    · simp [steps_begin]

/-- If the type is wrong about the size, `to_array` takes the first elements or is undefined. -/
theorem C83_to_array_size (source : List α) (size : Nat) : (toArray size source).map (·.1) = if size ≤ source.length then some (source.take size) else none := by
  cases size with
  | zero => simp [toArray]
  | succ n =>
    cases source with
    | nil => simp [toArray, andThen, begin, deref]
    | cons x xs =>
      split
      · next h => rw [toArray_cons x xs n (by simpa using h)]; rfl
      · next h =>
        rw [toArray, if_neg (by omega)]
        simp [andThen, begin, deref, rest_none (x :: xs) n 0 (by simp) (by simp at h ⊢; omega)]

/-- **C83**: every element of `make_array_n(n, value)` is the value, also if it is an rvalue, which then is moved from if there is at least one element; an lvalue keeps its value. -/
theorem C83_make_array_n (n : Nat) (rvalue : Bool) (v : α) :
    makeArrayN n rvalue (some v) = (List.replicate n (some v), if rvalue ∧ n ≠ 0 then none else some v) := by
  have hc : ∀ k, copies (some v) k = List.replicate k (some v) := fun k => by
    induction k with
    | zero => rfl
    | succ k ih => rw [copies, ih, List.replicate_succ]
  cases n with
  | zero => simp [makeArrayN]
  | succ n =>
    cases rvalue <;> simp [makeArrayN, hc, forward, List.replicate_succ']

/-! ## Examples -/

example : toArray 3 [5, 6, 7] = some ([5, 6, 7], [.begin, .deref 0, .next 0, .deref 1, .next 1, .deref 2]) := by decide +kernel
example : makeArrayN 3 true (some 5) = ([some 5, some 5, some 5], none) := by decide +kernel

end Verif.ToArray
