import Verif.Algo.Order
import Verif.Algo.Mem

/-!
# Searching (C36, C53)

Iterators are addresses; a range `[first, last)` is live when `Mem.Seg m first xs` and
`last = first + xs.length`. Reading a cell that is not live is undefined behaviour (`none`), and so is
a range whose end lies before its beginning.
-/

namespace Verif.Algo

variable {α β κ : Type}

/-! ## The model -/

/-- The loop of `find_if` with `n` elements to go (`algorithms/find.cpp` 28-33). -/
def findIfLoop (m : Mem α) (p : α → Bool) : Nat → Nat → Option Nat
  | 0, first => some first
  | n + 1, first => do
    let v ← m first
    if p v then some first else findIfLoop m p n (first + 1)

/-- `find_if` (`algorithms/find.cpp` 26-34). -/
def findIf (m : Mem α) (p : α → Bool) (first last : Nat) : Option Nat :=
  if first ≤ last then findIfLoop m p (last - first) first else none

/-- `find_if_not` (`algorithms/find.cpp` 65-68). -/
def findIfNot (m : Mem α) (p : α → Bool) (first last : Nat) : Option Nat := findIf m (fun x => !p x) first last

/-- The loop of `find_last_if`, `it` being `n` elements after `first` (`algorithms/find.cpp` 47-53). -/
def findLastIfLoop (m : Mem α) (p : α → Bool) (first last : Nat) : Nat → Option Nat
  | 0 => some last
  | n + 1 => do
    let v ← m (first + n)
    if p v then some (first + n) else findLastIfLoop m p first last n

/-- `find_last_if` (`algorithms/find.cpp` 45-54). -/
def findLastIf (m : Mem α) (p : α → Bool) (first last : Nat) : Option Nat :=
  if first ≤ last then findLastIfLoop m p first last (last - first) else none

/-- `find_last_if_not` (`algorithms/find.cpp` 79-82). -/
def findLastIfNot (m : Mem α) (p : α → Bool) (first last : Nat) : Option Nat := findLastIf m (fun x => !p x) first last

/-- `find` (`algorithms/find.cpp` 93-96); `eq` is `==`, with the value on the left side (`bounded/comparison_function_object.cpp` 24-30). -/
def find (eq : β → α → Bool) (m : Mem α) (first last : Nat) (value : β) : Option Nat := findIf m (fun x => eq value x) first last

/-- `find_last` (`algorithms/find.cpp` 107-110). -/
def findLast (eq : β → α → Bool) (m : Mem α) (first last : Nat) (value : β) : Option Nat := findLastIf m (fun x => eq value x) first last

/-- `maybe_find_if` (`algorithms/maybe_find.cpp` 27-35): the address of the element (or the element). -/
def maybeFindIf (m : Mem α) (p : α → Bool) (first last : Nat) : Option (Option Nat) := do
  let it ← findIf m p first last
  if it ≠ last then some (some it) else some none

/-- `all` (`algorithms/all_any_none.cpp` 26-28). -/
def allOf (m : Mem α) (p : α → Bool) (first last : Nat) : Option Bool := do
  let it ← findIfNot m p first last
  some (it == last)

/-- `any` (`algorithms/all_any_none.cpp` 55-57). -/
def anyOf (m : Mem α) (p : α → Bool) (first last : Nat) : Option Bool := do
  let it ← findIf m p first last
  some (it != last)

/-- `none` (`algorithms/all_any_none.cpp` 84-86). -/
def noneOf (m : Mem α) (p : α → Bool) (first last : Nat) : Option Bool := do
  let it ← findIf m p first last
  some (it == last)

/-- `all_equal` (`algorithms/all_any_none.cpp` 37-43). -/
def allEqual (eq : β → α → Bool) (m : Mem α) (first last : Nat) (value : β) : Option Bool := allOf m (fun x => eq value x) first last

/-- `any_equal` (`algorithms/all_any_none.cpp` 66-72). -/
def anyEqual (eq : β → α → Bool) (m : Mem α) (first last : Nat) (value : β) : Option Bool := anyOf m (fun x => eq value x) first last

/-- `none_equal` (`algorithms/all_any_none.cpp` 95-101). -/
def noneEqual (eq : β → α → Bool) (m : Mem α) (first last : Nat) (value : β) : Option Bool := noneOf m (fun x => eq value x) first last

/-- The loop of `count_if` with `n` elements to go (`algorithms/count.cpp` 25-30). The counter can
represent the size of the range (`count_type`). -/
def countIfLoop (m : Mem α) (p : α → Bool) : Nat → Nat → Nat → Option Nat
  | 0, _, sum => some sum
  | n + 1, it, sum => do
    let v ← m it
    countIfLoop m p n (it + 1) (if p v then sum + 1 else sum)

/-- `count_if` (`algorithms/count.cpp` 22-31). -/
def countIf (m : Mem α) (p : α → Bool) (first last : Nat) : Option Nat :=
  if first ≤ last then countIfLoop m p (last - first) first 0 else none

/-- `count` (`algorithms/count.cpp` 33-35). -/
def count (eq : β → α → Bool) (m : Mem α) (first last : Nat) (value : β) : Option Nat := countIf m (fun x => eq value x) first last

/-- The loop of `mismatch` with `n1` and `n2` elements to go (`algorithms/mismatch.cpp` 30-34). -/
def mismatchLoop (m1 : Mem α) (m2 : Mem β) (p : α → β → Bool) : Nat → Nat → Nat → Nat → Option (Nat × Nat)
  | n1 + 1, n2 + 1, it1, it2 => do
    let a ← m1 it1
    let b ← m2 it2
    if p a b then mismatchLoop m1 m2 p n1 n2 (it1 + 1) (it2 + 1) else some (it1, it2)
  | _, _, it1, it2 => some (it1, it2)

/-- `mismatch` (`algorithms/mismatch.cpp` 20-35). -/
def mismatch (m1 : Mem α) (m2 : Mem β) (p : α → β → Bool) (first1 last1 first2 last2 : Nat) : Option (Nat × Nat) :=
  if first1 ≤ last1 ∧ first2 ≤ last2 then mismatchLoop m1 m2 p (last1 - first1) (last2 - first2) first1 first2 else none

/-- The loop of `min_element` with `n` elements to go (`algorithms/minmax_element.cpp` 32-37). -/
def minElementLoop (m : Mem α) (lt : α → α → Bool) : Nat → Nat → Nat → Option Nat
  | 0, smallest, _ => some smallest
  | n + 1, smallest, it => do
    let v ← m it
    let s ← m smallest
    minElementLoop m lt n (if lt v s then it else smallest) (it + 1)

/-- `min_element` (`algorithms/minmax_element.cpp` 25-38). -/
def minElement (m : Mem α) (lt : α → α → Bool) (first last : Nat) : Option Nat :=
  if first = last then some first
  else if first < last then minElementLoop m lt (last - first - 1) first (first + 1) else none

/-- `max_element` (`algorithms/minmax_element.cpp` 44-49). -/
def maxElement (m : Mem α) (gt : α → α → Bool) (first last : Nat) : Option Nat :=
  minElement m (fun lhs rhs => !gt rhs lhs) first last

/-- `is_partitioned` (`algorithms/partition.cpp` 31-36). -/
def isPartitioned (m : Mem α) (p : α → Bool) (first last : Nat) : Option Bool := do
  let it ← findIfNot m p first last
  let r ← findIf m p it last
  some (r == last)

/-- The loop of `partition_point` (`algorithms/partition.cpp` 44-55). -/
def partitionPointLoop (m : Mem α) (p : α → Bool) (first count : Nat) : Option Nat :=
  if count = 0 then some first
  else match m (first + count / 2) with
    | none => none
    | some v =>
      if p v then partitionPointLoop m p (first + count / 2 + 1) (count - (count / 2 + 1))
      else partitionPointLoop m p first (count / 2)
termination_by count
decreasing_by all_goals omega

/-- `partition_point` (`algorithms/partition.cpp` 38-57). -/
def partitionPoint (m : Mem α) (p : α → Bool) (first last : Nat) : Option Nat :=
  if first ≤ last then partitionPointLoop m p first (last - first) else none

/-- `lower_bound` (`algorithms/binary_search.cpp` 22-24); `cmp` compares an element and the value. -/
def lowerBound (m : Mem α) (cmp : α → κ → Bool) (first last : Nat) (value : κ) : Option Nat :=
  partitionPoint m (fun element => cmp element value) first last

/-- `upper_bound` (`algorithms/binary_search.cpp` 32-34); `cmp'` compares the value and an element. -/
def upperBound (m : Mem α) (cmp' : κ → α → Bool) (first last : Nat) (value : κ) : Option Nat :=
  partitionPoint m (fun element => !cmp' value element) first last

/-- `equal_range` (`algorithms/binary_search.cpp` 43-49). -/
def equalRange (m : Mem α) (cmp : α → κ → Bool) (cmp' : κ → α → Bool) (first last : Nat) (value : κ) : Option (Nat × Nat) := do
  let it ← lowerBound m cmp first last value
  let up ← upperBound m cmp' it last value
  some (it, up)

/-- `binary_search` (`algorithms/binary_search.cpp` 59-62). -/
def binarySearch (m : Mem α) (cmp : α → κ → Bool) (cmp' : κ → α → Bool) (first last : Nat) (value : κ) : Option Bool := do
  let it ← lowerBound m cmp first last value
  if it = last then some false
  else do
    let v ← m it
    some (!cmp' value v)

/-! ## Linear searches -/

theorem findIfLoop_spec {m : Mem α} {p : α → Bool} : ∀ {xs : List α} {first : Nat}, m.Seg first xs →
    findIfLoop m p xs.length first = some (first + xs.findIdx p)
  | [], first, _ => rfl
  | x :: xs, first, h => by
    obtain ⟨h0, h1⟩ := Mem.seg_cons.1 h
    rw [List.length_cons, findIfLoop, h0, List.findIdx_cons]
    cases hp : p x with
    | true => simp [hp]
    | false =>
      simp only [Option.bind_eq_bind, Option.bind_some, hp, cond_false]
      rw [if_neg (by simp), findIfLoop_spec h1]
      congr 1; omega

/-- `find_if` returns the first position that satisfies the predicate, or the end. -/
theorem C53_find_if {m : Mem α} {p : α → Bool} {xs : List α} {first : Nat} (h : m.Seg first xs) :
    findIf m p first (first + xs.length) = some (first + xs.findIdx p) := by
  rw [findIf, if_pos (by omega), Nat.add_sub_cancel_left, findIfLoop_spec h]

theorem C53_find_if_not {m : Mem α} {p : α → Bool} {xs : List α} {first : Nat} (h : m.Seg first xs) :
    findIfNot m p first (first + xs.length) = some (first + xs.findIdx (fun x => !p x)) := C53_find_if h

theorem C53_find {m : Mem α} {eq : β → α → Bool} {xs : List α} {first : Nat} (h : m.Seg first xs) (value : β) :
    find eq m first (first + xs.length) value = some (first + xs.findIdx (eq value ·)) := C53_find_if h

theorem findLastIfLoop_spec {m : Mem α} {p : α → Bool} {xs : List α} {first last : Nat} (h : m.Seg first xs) : ∀ n, n ≤ xs.length →
    (∃ i, ∃ hi : i < xs.length, i < n ∧ findLastIfLoop m p first last n = some (first + i) ∧ p xs[i] = true ∧
        ∀ j, (hj : j < xs.length) → i < j → j < n → p xs[j] = false) ∨
      (findLastIfLoop m p first last n = some last ∧ ∀ j, (hj : j < xs.length) → j < n → p xs[j] = false)
  | 0, _ => .inr ⟨rfl, fun j _ h => by omega⟩
  | n + 1, hn => by
    rw [findLastIfLoop, h n (by omega)]
    simp only [Option.bind_eq_bind, Option.bind_some]
    cases hp : p (xs[n]'(by omega)) with
    | true =>
      refine .inl ⟨n, by omega, by omega, if_pos rfl, hp, fun j _ h1 h2 => by omega⟩
    | false =>
      rw [if_neg (by simp [hp])]
      rcases findLastIfLoop_spec (last := last) h n (by omega) with ⟨i, hi, hin, e, hpi, hno⟩ | ⟨e, hno⟩
      · refine .inl ⟨i, hi, by omega, e, hpi, fun j hj h1 h2 => ?_⟩
        by_cases hjn : j = n
        · subst hjn; exact hp
        · exact hno j hj h1 (by omega)
      · refine .inr ⟨e, fun j hj h2 => ?_⟩
        by_cases hjn : j = n
        · subst hjn; exact hp
        · exact hno j hj (by omega)

/-- `find_last_if` returns the last position that satisfies the predicate, or the end. -/
theorem C53_find_last_if {m : Mem α} {p : α → Bool} {xs : List α} {first : Nat} (h : m.Seg first xs) :
    ∃ r, findLastIf m p first (first + xs.length) = some r ∧
      ((∃ i, ∃ hi : i < xs.length, r = first + i ∧ p xs[i] = true ∧ ∀ j, (hj : j < xs.length) → i < j → p xs[j] = false) ∨
        (r = first + xs.length ∧ ∀ x ∈ xs, p x = false)) := by
  rw [findLastIf, if_pos (by omega), Nat.add_sub_cancel_left]
  rcases findLastIfLoop_spec (p := p) (last := first + xs.length) h xs.length (Nat.le_refl _) with ⟨i, hi, _, e, hpi, hno⟩ | ⟨e, hno⟩
  · exact ⟨_, e, .inl ⟨i, hi, rfl, hpi, fun j hj h1 => hno j hj h1 hj⟩⟩
  · refine ⟨_, e, .inr ⟨rfl, fun x hx => ?_⟩⟩
    obtain ⟨j, hj, rfl⟩ := List.mem_iff_getElem.1 hx
    exact hno j hj hj

theorem findIdx_eq_length_iff {p : α → Bool} {xs : List α} : xs.findIdx p = xs.length ↔ ∀ x ∈ xs, p x = false := by
  rw [List.findIdx_eq_length]

/-- `find_last_if_not` gives the last element that does not satisfy the predicate, or the end. -/
theorem C53_find_last_if_not {m : Mem α} {p : α → Bool} {xs : List α} {first : Nat} (h : m.Seg first xs) :
    ∃ r, findLastIfNot m p first (first + xs.length) = some r ∧
      ((∃ i, ∃ hi : i < xs.length, r = first + i ∧ p xs[i] = false ∧ ∀ j, (hj : j < xs.length) → i < j → p xs[j] = true) ∨
        (r = first + xs.length ∧ ∀ x ∈ xs, p x = true)) := by
  obtain ⟨r, e, h⟩ := C53_find_last_if (p := fun x => !p x) h
  refine ⟨r, e, ?_⟩
  simpa using h

/-- `find_last` gives the last element that is equal to the value, or the end. -/
theorem C53_find_last {m : Mem α} {eq : β → α → Bool} {xs : List α} {first : Nat} (h : m.Seg first xs) (value : β) :
    ∃ r, findLast eq m first (first + xs.length) value = some r ∧
      ((∃ i, ∃ hi : i < xs.length, r = first + i ∧ eq value xs[i] = true ∧ ∀ j, (hj : j < xs.length) → i < j → eq value xs[j] = false) ∨
        (r = first + xs.length ∧ ∀ x ∈ xs, eq value x = false)) := C53_find_last_if h


theorem C53_all {m : Mem α} {p : α → Bool} {xs : List α} {first : Nat} (h : m.Seg first xs) :
    ∃ b, allOf m p first (first + xs.length) = some b ∧ (b = true ↔ ∀ x ∈ xs, p x = true) := by
  refine ⟨_, by rw [allOf, C53_find_if_not h]; rfl, ?_⟩
  rw [beq_iff_eq, Nat.add_left_cancel_iff, findIdx_eq_length_iff]
  simp

theorem C53_any {m : Mem α} {p : α → Bool} {xs : List α} {first : Nat} (h : m.Seg first xs) :
    ∃ b, anyOf m p first (first + xs.length) = some b ∧ (b = true ↔ ∃ x ∈ xs, p x = true) := by
  refine ⟨_, by rw [anyOf, C53_find_if h]; rfl, ?_⟩
  rw [bne_iff_ne, ne_eq, Nat.add_left_cancel_iff, findIdx_eq_length_iff]
  simp

theorem C53_none {m : Mem α} {p : α → Bool} {xs : List α} {first : Nat} (h : m.Seg first xs) :
    ∃ b, noneOf m p first (first + xs.length) = some b ∧ (b = true ↔ ¬ ∃ x ∈ xs, p x = true) := by
  refine ⟨_, by rw [noneOf, C53_find_if h]; rfl, ?_⟩
  rw [beq_iff_eq, Nat.add_left_cancel_iff, findIdx_eq_length_iff]
  simp

theorem C53_all_equal {m : Mem α} {eq : β → α → Bool} {xs : List α} {first : Nat} (h : m.Seg first xs) (value : β) :
    ∃ b, allEqual eq m first (first + xs.length) value = some b ∧ (b = true ↔ ∀ x ∈ xs, eq value x = true) := C53_all h

theorem C53_any_equal {m : Mem α} {eq : β → α → Bool} {xs : List α} {first : Nat} (h : m.Seg first xs) (value : β) :
    ∃ b, anyEqual eq m first (first + xs.length) value = some b ∧ (b = true ↔ ∃ x ∈ xs, eq value x = true) := C53_any h

theorem C53_none_equal {m : Mem α} {eq : β → α → Bool} {xs : List α} {first : Nat} (h : m.Seg first xs) (value : β) :
    ∃ b, noneEqual eq m first (first + xs.length) value = some b ∧ (b = true ↔ ¬ ∃ x ∈ xs, eq value x = true) := C53_none h

/-- `maybe_find_if` gives the first element that satisfies the predicate, if there is one. -/
theorem C53_maybe_find {m : Mem α} {p : α → Bool} {xs : List α} {first : Nat} (h : m.Seg first xs) :
    ∃ r, maybeFindIf m p first (first + xs.length) = some r ∧ r.bind m = xs.find? p := by
  rw [maybeFindIf, C53_find_if h]
  simp only [Option.bind_eq_bind, Option.bind_some]
  by_cases hl : xs.findIdx p = xs.length
  · refine ⟨none, by simp [hl], ?_⟩
    have := findIdx_eq_length_iff.1 hl
    symm
    simpa using this
  · have hlt : xs.findIdx p < xs.length := Nat.lt_of_le_of_ne List.findIdx_le_length hl
    refine ⟨some (first + xs.findIdx p), by rw [if_pos (by omega)], ?_⟩
    simp only [Option.bind_some]
    rw [h _ hlt]
    rw [List.find?_eq_getElem?_findIdx, List.getElem?_eq_getElem hlt]

theorem countIfLoop_spec {m : Mem α} {p : α → Bool} : ∀ {xs : List α} {first : Nat} (sum : Nat), m.Seg first xs →
    countIfLoop m p xs.length first sum = some (sum + xs.countP p)
  | [], first, sum, _ => rfl
  | x :: xs, first, sum, h => by
    obtain ⟨h0, h1⟩ := Mem.seg_cons.1 h
    rw [List.length_cons, countIfLoop, h0, List.countP_cons]
    simp only [Option.bind_eq_bind, Option.bind_some]
    rw [countIfLoop_spec _ h1]
    cases p x <;> simp <;> omega

/-- `count_if` returns the number of elements that satisfy the predicate. -/
theorem C53_count_if {m : Mem α} {p : α → Bool} {xs : List α} {first : Nat} (h : m.Seg first xs) :
    countIf m p first (first + xs.length) = some (xs.countP p) := by
  rw [countIf, if_pos (by omega), Nat.add_sub_cancel_left, countIfLoop_spec 0 h, Nat.zero_add]

/-- `count` returns the number of elements that are equal to the value. -/
theorem C53_count [DecidableEq α] {m : Mem α} {xs : List α} {first : Nat} (h : m.Seg first xs) (value : α) :
    count (fun a b => a == b) m first (first + xs.length) value = some (xs.count value) := by
  rw [count, C53_count_if h, List.count]
  congr 2
  funext x
  exact Bool.beq_comm

/-- The positions returned by `mismatch`: `k` elements agree pairwise and there is no more pair or it
disagrees. -/
def IsMismatch (p : α → β → Bool) (xs : List α) (ys : List β) (k : Nat) : Prop :=
  k ≤ xs.length ∧ k ≤ ys.length ∧ (∀ q ∈ (xs.take k).zip (ys.take k), p q.1 q.2 = true) ∧
    ∀ a b, xs[k]? = some a → ys[k]? = some b → p a b = false

theorem mismatchLoop_spec {m1 : Mem α} {m2 : Mem β} {p : α → β → Bool} : ∀ {xs : List α} {ys : List β} {f1 f2 : Nat},
    m1.Seg f1 xs → m2.Seg f2 ys → ∃ k, mismatchLoop m1 m2 p xs.length ys.length f1 f2 = some (f1 + k, f2 + k) ∧ IsMismatch p xs ys k
  | [], ys, f1, f2, _, _ => ⟨0, by cases ys <;> rfl, by simp [IsMismatch]⟩
  | x :: xs, [], f1, f2, _, _ => ⟨0, rfl, by simp [IsMismatch]⟩
  | x :: xs, y :: ys, f1, f2, h1, h2 => by
    obtain ⟨h10, h11⟩ := Mem.seg_cons.1 h1
    obtain ⟨h20, h21⟩ := Mem.seg_cons.1 h2
    simp only [List.length_cons, mismatchLoop, h10, h20, Option.bind_eq_bind, Option.bind_some]
    cases hp : p x y with
    | false => exact ⟨0, by simp, by simp [IsMismatch, hp]⟩
    | true =>
      obtain ⟨k, e, a1, a2, a3, a4⟩ := mismatchLoop_spec (p := p) h11 h21
      refine ⟨k + 1, ?_, by simpa using a1, by simpa using a2, ?_, by simpa using a4⟩
      · rw [if_pos rfl, e]; congr 2 <;> omega
      · simpa [hp] using a3

theorem C53_mismatch {m1 : Mem α} {m2 : Mem β} {p : α → β → Bool} {xs : List α} {ys : List β} {f1 f2 : Nat}
    (h1 : m1.Seg f1 xs) (h2 : m2.Seg f2 ys) :
    ∃ k, mismatch m1 m2 p f1 (f1 + xs.length) f2 (f2 + ys.length) = some (f1 + k, f2 + k) ∧ IsMismatch p xs ys k := by
  rw [mismatch, if_pos ⟨by omega, by omega⟩, Nat.add_sub_cancel_left, Nat.add_sub_cancel_left]
  exact mismatchLoop_spec h1 h2

/-- The loop keeps the best position so far for any relation that behaves like "take the new one". -/
theorem minElementLoop_spec {m : Mem α} {lt : α → α → Bool} {xs : List α} {first : Nat} (h : m.Seg first xs) (P : Nat → Nat → Prop)
    (hstep : ∀ s it (hs : s < it) (hit : it < xs.length), P s it → P (if lt xs[it] (xs[s]'(by omega)) then it else s) (it + 1)) :
    ∀ n s it, s < it → it + n = xs.length → P s it →
    ∃ s', minElementLoop m lt n (first + s) (first + it) = some (first + s') ∧ s' < xs.length ∧ P s' xs.length
  | 0, s, it, hs, hn, hP => ⟨s, rfl, by omega, by have : it = xs.length := by omega
                                                  exact this ▸ hP⟩
  | n + 1, s, it, hs, hn, hP => by
    rw [minElementLoop, h it (by omega), h s (by omega)]
    simp only [Option.bind_eq_bind, Option.bind_some]
    have hnext := hstep s it hs (by omega) hP
    split
    · rename_i hlt
      rw [if_pos hlt] at hnext
      exact minElementLoop_spec h P hstep n it (it + 1) (by omega) (by omega) hnext
    · rename_i hlt
      rw [if_neg hlt] at hnext
      exact minElementLoop_spec h P hstep n s (it + 1) (by omega) (by omega) hnext

/-- `min_element` returns the first of the smallest elements (the end for an empty range). -/
theorem C53_min_element {m : Mem α} {lt : α → α → Bool} (hlt : StrictWeak lt) {xs : List α} {first : Nat} (h : m.Seg first xs) :
    ∃ s, minElement m lt first (first + xs.length) = some (first + s) ∧ (xs = [] → s = 0) ∧
      (xs ≠ [] → ∃ hs : s < xs.length, (∀ j (hj : j < xs.length), lt xs[j] xs[s] = false) ∧ ∀ j (hj : j < s), lt xs[s] xs[j] = true) := by
  cases hx : xs with
  | nil => exact ⟨0, by simp [minElement], fun _ => rfl, fun h => absurd rfl h⟩
  | cons x xs' =>
    rw [← hx]
    have hlen : xs.length = xs'.length + 1 := by rw [hx]; rfl
    rw [minElement, if_neg (by omega), if_pos (by omega)]
    let P : Nat → Nat → Prop := fun s it => ∃ hs : s < xs.length,
      (∀ j (hj : j < xs.length), j < it → lt xs[j] xs[s] = false) ∧ ∀ j (hj : j < s), lt xs[s] xs[j] = true
    obtain ⟨s, e, hs, hs', h1, h2⟩ := minElementLoop_spec (lt := lt) h P (by
      rintro s it hs hit ⟨hs', h1, h2⟩
      split
      · rename_i hl
        refine ⟨hit, fun j hj hji => ?_, fun j hj => ?_⟩
        · by_cases hje : j = it
          · subst hje; exact hlt.irrefl _
          · exact hlt.asymm (hlt.lt_of_lt_of_le hl (h1 j hj (by omega)))
        · exact hlt.lt_of_lt_of_le hl (h1 j (by omega) hj)
      · rename_i hl
        refine ⟨hs', fun j hj hji => ?_, h2⟩
        by_cases hje : j = it
        · subst hje; simpa using hl
        · exact h1 j hj (by omega)) (xs.length - 1) 0 1 (by omega) (by omega)
      ⟨by omega, fun j hj hj1 => by
        have : j = 0 := by omega
        subst this; exact hlt.irrefl _, fun j hj => by omega⟩
    rw [show first + xs.length - first - 1 = xs.length - 1 by omega]
    exact ⟨s, e, fun hc => by rw [hc] at hlen; simp at hlen, fun _ => ⟨hs', fun j hj => h1 j hj hj, h2⟩⟩

/-- `max_element` returns the last of the largest elements; `gt` is "greater". -/
theorem C53_max_element {m : Mem α} {gt : α → α → Bool} (hgt : StrictWeak gt) {xs : List α} {first : Nat} (h : m.Seg first xs) :
    ∃ s, maxElement m gt first (first + xs.length) = some (first + s) ∧ (xs = [] → s = 0) ∧
      (xs ≠ [] → ∃ hs : s < xs.length, (∀ j (hj : j < xs.length), gt xs[j] xs[s] = false) ∧
        ∀ j (hj : j < xs.length), s < j → gt xs[s] xs[j] = true) := by
  cases hx : xs with
  | nil => exact ⟨0, by simp [maxElement, minElement], fun _ => rfl, fun h => absurd rfl h⟩
  | cons x xs' =>
    rw [← hx]
    have hlen : xs.length = xs'.length + 1 := by rw [hx]; rfl
    rw [maxElement, minElement, if_neg (by omega), if_pos (by omega)]
    let P : Nat → Nat → Prop := fun s it => ∃ hs : s < xs.length,
      (∀ j (hj : j < xs.length), j < it → gt xs[j] xs[s] = false) ∧ ∀ j (hj : j < xs.length), s < j → j < it → gt xs[s] xs[j] = true
    obtain ⟨s, e, hs, hs', h1, h2⟩ := minElementLoop_spec (lt := fun lhs rhs => !gt rhs lhs) h P (by
      rintro s it hs hit ⟨hs', h1, h2⟩
      split
      · rename_i hl
        simp only [Bool.not_eq_true'] at hl
        refine ⟨hit, fun j hj hji => ?_, fun j hj h3 h4 => by omega⟩
        by_cases hje : j = it
        · subst hje; exact hgt.irrefl _
        · exact hgt.negTrans hl (h1 j hj (by omega))
      · rename_i hl
        simp only [Bool.not_eq_true', Bool.not_eq_false] at hl
        refine ⟨hs', fun j hj hji => ?_, fun j hj h3 h4 => ?_⟩
        · by_cases hje : j = it
          · subst hje; exact hgt.asymm hl
          · exact h1 j hj (by omega)
        · by_cases hje : j = it
          · subst hje; exact hl
          · exact h2 j hj h3 (by omega)) (xs.length - 1) 0 1 (by omega) (by omega)
      ⟨by omega, fun j hj hj1 => by
        have : j = 0 := by omega
        subst this; exact hgt.irrefl _, fun j hj h3 h4 => by omega⟩
    rw [show first + xs.length - first - 1 = xs.length - 1 by omega]
    exact ⟨s, e, fun hc => by rw [hc] at hlen; simp at hlen, fun _ => ⟨hs', fun j hj => h1 j hj hj, fun j hj h3 => h2 j hj h3 hj⟩⟩

/-! ## Binary searches -/

/-- The elements that satisfy the predicate come first. -/
def Partitioned (p : α → Bool) (xs : List α) : Prop := xs.Pairwise fun a b => p b = true → p a = true

/-- Whatever the contents, the search ends inside the range, reading only live elements. -/
theorem C36_partition_point_safe {m : Mem α} {p : α → Bool} {xs : List α} {first : Nat} (h : m.Seg first xs) :
    ∃ k, k ≤ xs.length ∧ partitionPoint m p first (first + xs.length) = some (first + k) := by
  rw [partitionPoint, if_pos (by omega), Nat.add_sub_cancel_left]
  have key : ∀ n a, a + n ≤ xs.length → ∃ k, a ≤ k ∧ k ≤ a + n ∧ partitionPointLoop m p (first + a) n = some (first + k) := by
    intro n
    induction n using Nat.strongRecOn with
    | _ n ih =>
      intro a han
      rw [partitionPointLoop]
      split
      · exact ⟨a, by omega, by omega, rfl⟩
      · rename_i hn
        rw [show first + a + n / 2 = first + (a + n / 2) by omega, h (a + n / 2) (by omega)]
        dsimp only
        split
        · obtain ⟨k, h1, h2, e⟩ := ih (n - (n / 2 + 1)) (by omega) (a + n / 2 + 1) (by omega)
          refine ⟨k, by omega, by omega, ?_⟩
          rw [← e]; congr 1
        · obtain ⟨k, h1, h2, e⟩ := ih (n / 2) (by omega) a (by omega)
          exact ⟨k, by omega, by omega, e⟩
  obtain ⟨k, _, h2, e⟩ := key xs.length 0 (by omega)
  exact ⟨k, by omega, by simpa using e⟩

theorem Partitioned.getElem_iff {p : α → Bool} {xs : List α} (h : Partitioned p xs) {i : Nat} (hi : i < xs.length) :
    p xs[i] = true ↔ i < xs.countP p := by
  induction xs generalizing i with
  | nil => simp at hi
  | cons x xs ih =>
    obtain ⟨h0, h1⟩ := List.pairwise_cons.1 h
    rw [List.countP_cons]
    cases i with
    | zero =>
      cases hp : p x with
      | true => simp [hp]
      | false =>
        have : xs.countP p = 0 := by
          rw [List.countP_eq_zero]
          intro y hy hpy
          rw [h0 y hy hpy] at hp; cases hp
        simp [hp, this]
    | succ i =>
      have := ih h1 (i := i) (by simpa using hi)
      rw [List.getElem_cons_succ, this]
      cases hp : p x with
      | true => simp
      | false =>
        have hz : xs.countP p = 0 := by
          rw [List.countP_eq_zero]
          intro y hy hpy
          rw [h0 y hy hpy] at hp; cases hp
        simp [hz]

/-- `partition_point` of a partitioned range: the number of elements satisfying the predicate. -/
theorem C36_partition_point {m : Mem α} {p : α → Bool} {xs : List α} {first : Nat} (h : m.Seg first xs) (hp : Partitioned p xs) :
    partitionPoint m p first (first + xs.length) = some (first + xs.countP p) := by
  rw [partitionPoint, if_pos (by omega), Nat.add_sub_cancel_left]
  have key : ∀ n a, a ≤ xs.countP p → xs.countP p ≤ a + n → a + n ≤ xs.length →
      partitionPointLoop m p (first + a) n = some (first + xs.countP p) := by
    intro n
    induction n using Nat.strongRecOn with
    | _ n ih =>
      intro a h1 h2 han
      rw [partitionPointLoop]
      split
      · congr 2; omega
      · rename_i hn
        rw [show first + a + n / 2 = first + (a + n / 2) by omega, h (a + n / 2) (by omega)]
        dsimp only
        split
        · rename_i ht
          have := (hp.getElem_iff (by omega)).1 ht
          rw [← ih (n - (n / 2 + 1)) (by omega) (a + n / 2 + 1) (by omega) (by omega) (by omega)]
          congr 1
        · rename_i ht
          have := mt (hp.getElem_iff (i := a + n / 2) (by omega)).2 ht
          exact ih (n / 2) (by omega) a h1 (by omega) (by omega)
  have := key xs.length 0 (by omega) (by have := List.countP_le_length (p := p) (l := xs); omega) (by omega)
  simpa using this

theorem C36_is_partitioned {m : Mem α} {p : α → Bool} {xs : List α} {first : Nat} (h : m.Seg first xs) :
    ∃ b, isPartitioned m p first (first + xs.length) = some b ∧ (b = true ↔ Partitioned p xs) := by
  rw [isPartitioned, C53_find_if_not h]
  simp only [Option.bind_eq_bind, Option.bind_some]
  obtain ⟨k, hk⟩ : ∃ k, k = xs.findIdx (fun x => !p x) := ⟨_, rfl⟩
  have hkl : k ≤ xs.length := hk ▸ List.findIdx_le_length
  rw [← hk]
  have hsplit : xs.take k ++ xs.drop k = xs := List.take_append_drop _ _
  have hseg : m.Seg (first + k) (xs.drop k) := by
    have h' := h
    rw [← hsplit, Mem.seg_append, List.length_take, Nat.min_eq_left hkl] at h'
    exact h'.2
  have e := C53_find_if (p := p) hseg
  rw [List.length_drop, show first + k + (xs.length - k) = first + xs.length by omega] at e
  rw [e]
  refine ⟨_, rfl, ?_⟩
  rw [beq_iff_eq]
  have hdl : (xs.drop k).length = xs.length - k := List.length_drop
  have hiff : first + k + (xs.drop k).findIdx p = first + xs.length ↔ ∀ x ∈ xs.drop k, p x = false := by
    rw [← findIdx_eq_length_iff, hdl]; omega
  rw [hiff]
  constructor
  · intro hno
    rw [Partitioned, ← hsplit, List.pairwise_append]
    refine ⟨?_, ?_, fun a ha b hb hpb => by rw [hno b hb] at hpb; cases hpb⟩
    · rw [List.pairwise_iff_getElem]
      intro i j hi hj _ _
      have hi' : i < k := by simp at hi; omega
      have := List.not_of_lt_findIdx (p := fun x => !p x) (xs := xs) (i := i) (by omega)
      rw [List.getElem_take]
      simpa using this
    · rw [List.pairwise_iff_getElem]
      intro i j hi hj _ hpb
      rw [hno _ (List.getElem_mem hj)] at hpb; cases hpb
  · intro hp x hx
    rw [List.mem_iff_getElem] at hx
    obtain ⟨i, hi, rfl⟩ := hx
    rw [List.getElem_drop]
    have hkx : k < xs.length := by omega
    have hpk : p xs[k] = false := by
      have := List.findIdx_getElem (p := fun x => !p x) (xs := xs) (w := by omega)
      simpa [← hk] using this
    by_contra hcon
    rw [Bool.not_eq_false] at hcon
    cases i with
    | zero => simp only [Nat.add_zero] at hcon; rw [hpk] at hcon; cases hcon
    | succ i =>
      have := List.pairwise_iff_getElem.1 hp k (k + (i + 1)) hkx (by omega) (by omega) hcon
      rw [hpk] at this; cases this

theorem Sorted.partitioned_lt {lt : α → α → Bool} (h : StrictWeak lt) {xs : List α} (hs : Sorted lt xs) (v : α) :
    Partitioned (fun x => lt x v) xs := by
  refine List.Pairwise.imp (fun {a b} hab hb => ?_) hs
  exact h.lt_of_le_of_lt hab hb

theorem Sorted.partitioned_le {lt : α → α → Bool} (h : StrictWeak lt) {xs : List α} (hs : Sorted lt xs) (v : α) :
    Partitioned (fun x => !lt v x) xs := by
  refine List.Pairwise.imp (fun {a b} hab hb => ?_) hs
  simp only [Bool.not_eq_true'] at hb ⊢
  exact h.negTrans hab hb

/-- `lower_bound` of a sorted range: past exactly the smaller elements. -/
theorem C36_lower_bound {m : Mem α} {lt : α → α → Bool} (hw : StrictWeak lt) {xs : List α} {first : Nat} (h : m.Seg first xs)
    (hs : Sorted lt xs) (v : α) : lowerBound m lt first (first + xs.length) v = some (first + xs.countP (lt · v)) :=
  C36_partition_point h (hs.partitioned_lt hw v)

/-- `upper_bound` of a sorted range: before exactly the greater elements. -/
theorem C36_upper_bound {m : Mem α} {lt : α → α → Bool} (hw : StrictWeak lt) {xs : List α} {first : Nat} (h : m.Seg first xs)
    (hs : Sorted lt xs) (v : α) : upperBound m lt first (first + xs.length) v = some (first + xs.countP (fun x => !lt v x)) :=
  C36_partition_point h (hs.partitioned_le hw v)

/-- The three groups of a sorted range: smaller, equivalent, greater. -/
theorem Sorted.split {lt : α → α → Bool} (h : StrictWeak lt) {xs : List α} (hs : Sorted lt xs) (v : α) :
    xs = xs.filter (lt · v) ++ xs.filter (equiv lt v) ++ xs.filter (lt v ·) := by
  induction xs with
  | nil => rfl
  | cons x xs ih =>
    obtain ⟨h0, h1⟩ := List.pairwise_cons.1 hs
    have ih := ih h1
    by_cases c1 : lt x v = true
    · have c2 : equiv lt v x = false := by simp [equiv, c1]
      have c3 : lt v x = false := h.asymm c1
      simp only [List.filter_cons, c1, c2, c3, if_true, Bool.false_eq_true, if_false, List.cons_append]
      exact congrArg _ ih
    · rw [Bool.not_eq_true] at c1
      have hn1 : xs.filter (lt · v) = [] := by
        rw [List.filter_eq_nil_iff]
        intro y hy hyv
        have := h.lt_of_le_of_lt (h0 y hy) hyv
        rw [c1] at this; cases this
      by_cases c3 : lt v x = true
      · have c2 : equiv lt v x = false := by simp [equiv, c3]
        have hn2 : xs.filter (equiv lt v) = [] := by
          rw [List.filter_eq_nil_iff]
          intro y hy he
          have e := equiv_iff.1 he
          have := h.lt_of_lt_of_le c3 (h0 y hy)
          rw [e.1] at this; cases this
        rw [hn1, hn2] at ih
        simp only [List.filter_cons, c1, c2, c3, if_true, Bool.false_eq_true, if_false, hn1, hn2, List.nil_append]
        exact congrArg _ (by simpa using ih)
      · rw [Bool.not_eq_true] at c3
        have c2 : equiv lt v x = true := by simp [equiv, c1, c3]
        rw [hn1] at ih
        simp only [List.filter_cons, c1, c2, c3, if_true, Bool.false_eq_true, if_false, hn1, List.nil_append, List.cons_append]
        exact congrArg _ (by simpa using ih)

/-- `equal_range` of a sorted range delimits exactly the equivalent elements. -/
theorem C36_equal_range {m : Mem α} {lt : α → α → Bool} (hw : StrictWeak lt) {xs : List α} {first : Nat} (h : m.Seg first xs)
    (hs : Sorted lt xs) (v : α) :
    ∃ lo hi, equalRange m lt lt first (first + xs.length) v = some (lo, hi) ∧ first ≤ lo ∧ hi = lo + (xs.filter (equiv lt v)).length ∧
      hi ≤ first + xs.length ∧ m.Seg lo (xs.filter (equiv lt v)) := by
  rw [equalRange, C36_lower_bound hw h hs]
  simp only [Option.bind_eq_bind, Option.bind_some]
  have hsp := hs.split hw v
  have h' := h
  rw [hsp, List.append_assoc, Mem.seg_append] at h'
  obtain ⟨-, h2⟩ := h'
  have hlen := congrArg List.length hsp
  simp only [List.length_append] at hlen
  have hs2 : Sorted lt (xs.filter (equiv lt v) ++ xs.filter (lt v ·)) := by
    rw [Sorted] at hs ⊢
    rw [hsp, List.append_assoc] at hs
    exact (List.pairwise_append.1 hs).2.1
  have e := C36_upper_bound hw h2 hs2 v
  rw [List.length_append, show first + (List.filter (fun x => lt x v) xs).length +
    ((List.filter (equiv lt v) xs).length + (List.filter (fun x => lt v x) xs).length) = first + xs.length by omega] at e
  rw [List.countP_eq_length_filter, e]
  refine ⟨_, _, rfl, by omega, ?_, ?_, (Mem.seg_append.1 h2).1⟩
  · congr 1
    rw [List.countP_append, List.countP_filter, List.countP_filter, List.countP_eq_length_filter, List.countP_eq_length_filter]
    have e1 : xs.filter (fun a => !lt v a && equiv lt v a) = xs.filter (equiv lt v) := by
      congr 1; funext a; simp only [equiv]; cases lt v a <;> simp
    have e2 : xs.filter (fun a => !lt v a && lt v a) = [] := by
      rw [List.filter_eq_nil_iff]; intro a _; cases lt v a <;> simp
    rw [e1, e2]; simp
  · have := List.countP_le_length (p := fun x => !lt v x) (l := xs.filter (equiv lt v) ++ xs.filter (lt v ·))
    rw [List.length_append] at this
    omega

/-- `binary_search` of a sorted range is true exactly when an equivalent element is present. -/
theorem C36_binary_search {m : Mem α} {lt : α → α → Bool} (hw : StrictWeak lt) {xs : List α} {first : Nat} (h : m.Seg first xs)
    (hs : Sorted lt xs) (v : α) :
    ∃ b, binarySearch m lt lt first (first + xs.length) v = some b ∧ (b = true ↔ ∃ x ∈ xs, lt x v = false ∧ lt v x = false) := by
  rw [binarySearch, C36_lower_bound hw h hs]
  simp only [Option.bind_eq_bind, Option.bind_some]
  have hp := hs.partitioned_lt hw v
  have hle := List.countP_le_length (p := fun x => lt x v) (l := xs)
  by_cases he : xs.countP (lt · v) = xs.length
  · rw [if_pos (by omega)]
    refine ⟨false, rfl, by simp, ?_⟩
    rintro ⟨x, hx, h1, h2⟩
    rw [List.countP_eq_length] at he
    rw [he x hx] at h1; cases h1
  · have hlt : xs.countP (lt · v) < xs.length := by omega
    rw [if_neg (by omega), h _ hlt]
    refine ⟨_, rfl, ?_⟩
    simp only [Bool.not_eq_true']
    have hnot : lt (xs[xs.countP (lt · v)]) v = false := by
      have := mt (hp.getElem_iff hlt).1 (Nat.lt_irrefl _)
      simpa using this
    constructor
    · intro hv
      exact ⟨_, List.getElem_mem hlt, hnot, hv⟩
    · rintro ⟨x, hx, h1, h2⟩
      obtain ⟨i, hi, rfl⟩ := List.mem_iff_getElem.1 hx
      have hge : xs.countP (lt · v) ≤ i := by
        have := mt (hp.getElem_iff hi).2 (by simp [h1])
        omega
      by_cases hie : i = xs.countP (lt · v)
      · subst hie; exact h2
      · have := List.pairwise_iff_getElem.1 hs _ i hlt hi (by omega)
        exact hw.negTrans this h2

/-! ## Examples -/

/-- A sorted range with ties at address 3. -/
def exSorted : Mem Nat := fun a => if 3 ≤ a then [1, 2, 2, 4, 7][a - 3]? else none

example : exSorted.Seg 3 [1, 2, 2, 4, 7] := by
  intro i hi
  match i, hi with
  | 0, _ => rfl
  | 1, _ => rfl
  | 2, _ => rfl
  | 3, _ => rfl
  | 4, _ => rfl

example : Sorted (fun a b : Nat => decide (a < b)) [1, 2, 2, 4, 7] := by simp [Sorted]

example : lowerBound exSorted (fun a b : Nat => decide (a < b)) 3 8 2 = some 4 := by decide +kernel
example : equalRange exSorted (fun a b : Nat => decide (a < b)) (fun a b : Nat => decide (a < b)) 3 8 2 = some (4, 6) := by decide +kernel
example : binarySearch exSorted (fun a b : Nat => decide (a < b)) (fun a b : Nat => decide (a < b)) 3 8 5 = some false := by decide +kernel
example : minElement exSorted (fun a b : Nat => decide (a < b)) 3 8 = some 3 := by decide +kernel
example : findLastIf exSorted (fun a => a == 2) 3 8 = some 5 := by decide +kernel
example : count (fun a b : Nat => a == b) exSorted 3 8 2 = some 2 := by decide +kernel
example : (allEqual (fun a b : Nat => a == b) exSorted 4 6 2, anyEqual (fun a b : Nat => a == b) exSorted 3 8 3, noneEqual (fun a b : Nat => a == b) exSorted 3 8 7) =
    (some true, some false, some false) := by decide +kernel

end Verif.Algo
