import Verif.Algo.Mem
import Mathlib.Data.List.Induction
import Mathlib.Tactic.IntervalCases

/-!
# Copying and relocating within one array

Models `containers::copy`, `copy_backward` and `copy_truncate` (`algorithms/copy.cpp` 34-105) and `uninitialized_relocate`,
`uninitialized_relocate_backward` (`algorithms/uninitialized.cpp` 105-123) on ranges that are given as lvalues and may overlap. Positions are
addresses in one memory. The elements are read and assigned one by one; copies of elements are exact and do not throw. Rvalue containers, whose
elements are relocated instead, cannot overlap with the output and are those of C57. `copy_or_relocate_from` returns the position it stopped at.
-/

namespace Verif.Algo

variable {α : Type}

namespace Mem

/-- `*output = *it` between addresses (`algorithms/copy.cpp` 37, `algorithms/copy_or_relocate_from.cpp` 47): both objects have to exist. -/
def assignAt (m : Mem α) (dst src : Nat) : Option (Mem α) :=
  match m src, m dst with
  | some v, some _ => some (upd m dst (some v))
  | _, _ => none

/-- `copy(subrange(it, last), output)` (`algorithms/copy.cpp` 34-41 with the loop of `algorithms/copy_or_relocate_from.cpp` 46-50), where `last` is
`n` steps behind `it`. The positions are those of the returned `copy_result`. -/
def copy (m : Mem α) (it output : Nat) : Nat → Option (Mem α × Nat × Nat)
  | 0 => some (m, it, output)
  | n + 1 => do
    let m ← m.assignAt output it
    copy m (it + 1) (output + 1) n

/-- `copy_backward(subrange(first, it), out)` (`algorithms/copy.cpp` 100-105), where `it` is `n` steps behind `first`: `copy` over reverse iterators,
which refer to the element before the position they are made from (`algorithms/reverse_iterator.cpp` 50-52, 60-64). The position is the `base()` of
the returned iterator. Going before the address 0 is undefined. -/
def copyBackward (m : Mem α) (it out : Nat) : Nat → Option (Mem α × Nat)
  | 0 => some (m, out)
  | n + 1 =>
    if it = 0 ∨ out = 0 then none
    else do
      let m ← m.assignAt (out - 1) (it - 1)
      copyBackward m (it - 1) (out - 1) n

/-- `copy_truncate(subrange(in, inLast), subrange(out, outLast))` (`algorithms/copy.cpp` 43-56, 67-73). The fuel of the loop is the number of
elements of the input. -/
def copyTruncate (m : Mem α) (inFirst inLast outFirst outLast : Nat) : Nat → Option (Mem α × Nat × Nat)
  | 0 => if inFirst ≠ inLast ∧ outFirst ≠ outLast then none else some (m, inFirst, outFirst)
  | n + 1 =>
    if inFirst ≠ inLast ∧ outFirst ≠ outLast then do
      let m ← m.assignAt outFirst inFirst
      copyTruncate m (inFirst + 1) inLast (outFirst + 1) outLast n
    else some (m, inFirst, outFirst)

/-- `uninitialized_relocate(subrange(it, last), output)` (`algorithms/uninitialized.cpp` 105-112), where `last` is `n` steps behind `it`; returns the
position of the output. -/
def relocate (m : Mem α) (it output : Nat) : Nat → Option (Mem α × Nat)
  | 0 => some (m, output)
  | n + 1 => do
    let m ← m.relocateAt output it
    relocate m (it + 1) (output + 1) n

/-- `uninitialized_relocate_backward(subrange(first, last), output_last)` (`algorithms/uninitialized.cpp` 114-123), where `last` is `n` steps behind
`first`. -/
def relocateBackward (m : Mem α) (last outputLast : Nat) : Nat → Option (Mem α × Nat)
  | 0 => some (m, outputLast)
  | n + 1 =>
    if last = 0 ∨ outputLast = 0 then none
    else do
      let m ← m.relocateAt (outputLast - 1) (last - 1)
      relocateBackward m (last - 1) (outputLast - 1) n

/-! ## What the caller may rely on -/

/-- There are objects at the `n` addresses from `b` on. -/
def Live (m : Mem α) (b n : Nat) : Prop := ∀ i, i < n → (m (b + i)).isSome

theorem assignAt_spec {m : Mem α} {dst src : Nat} {v : α} (hs : m src = some v) (hd : (m dst).isSome) :
    m.assignAt dst src = some (upd m dst (some v)) := by
  obtain ⟨w, hw⟩ := Option.isSome_iff_exists.1 hd
  simp [assignAt, hs, hw]

theorem Live.upd {m : Mem α} {b n dst : Nat} {v : α} (h : Live m b n) : Live (upd m dst (some v)) b n := by
  intro i hi
  by_cases e : b + i = dst
  · simp [e]
  · rw [upd_other _ _ e]; exact h i hi

/-- The next index of a pattern that repeats itself. -/
theorem succ_mod_cases (i k : Nat) (hk : 0 < k) : (i % k + 1 < k ∧ (i + 1) % k = i % k + 1) ∨ (i % k + 1 = k ∧ (i + 1) % k = 0) := by
  have h := Nat.mod_lt i hk
  rcases Nat.lt_or_ge (i % k + 1) k with hlt | hge
  · left
    refine ⟨hlt, ?_⟩
    rw [Nat.add_mod, Nat.mod_eq_of_lt (show 1 < k by omega), Nat.mod_eq_of_lt hlt]
  · right
    refine ⟨by omega, ?_⟩
    rcases Nat.lt_or_ge 1 k with h1 | h1
    · rw [Nat.add_mod, Nat.mod_eq_of_lt h1, show i % k + 1 = k by omega, Nat.mod_self]
    · rw [show k = 1 by omega, Nat.mod_one]

theorem copy_forwards : ∀ (n : Nat) {m : Mem α} {s d : Nat}, d ≤ s → Live m s n → Live m d n →
    ∃ m', m.copy s d n = some (m', s + n, d + n) ∧ (∀ i, i < n → m' (d + i) = m (s + i)) ∧
      SameOff m m' (fun x => d ≤ x ∧ x < d + n)
  | 0, m, s, d, _, _, _ => ⟨m, rfl, fun i h => by omega, fun _ _ => rfl⟩
  | n + 1, m, s, d, h, hs, hd => by
    obtain ⟨v, hv⟩ := Option.isSome_iff_exists.1 (hs 0 (by omega))
    rw [Nat.add_zero] at hv
    obtain ⟨m', e, hm, hf⟩ := copy_forwards n (m := upd m d (some v)) (s := s + 1) (d := d + 1) (by omega)
      (Live.upd fun i hi => by rw [show s + 1 + i = s + (i + 1) by omega]; exact hs _ (by omega))
      (Live.upd fun i hi => by rw [show d + 1 + i = d + (i + 1) by omega]; exact hd _ (by omega))
    refine ⟨m', ?_, ?_, ?_⟩
    · rw [copy, assignAt_spec hv (show (m d).isSome from hd 0 (by omega))]
      show copy _ _ _ _ = _
      rw [e, show s + 1 + n = s + (n + 1) by omega, show d + 1 + n = d + (n + 1) by omega]
    · intro i hi
      cases i with
      | zero => rw [hf _ (by omega), Nat.add_zero, upd_same, Nat.add_zero, hv]
      | succ i =>
        rw [show d + (i + 1) = d + 1 + i by omega, hm i (by omega), upd_other _ _ (by omega), show s + (i + 1) = s + 1 + i by omega]
    · intro x hx
      rw [hf x (by omega), upd_other _ _ (by omega)]

theorem copy_repeats : ∀ (n : Nat) {m : Mem α} {s d : Nat}, s < d → Live m s n → Live m d n →
    ∃ m', m.copy s d n = some (m', s + n, d + n) ∧ (∀ i, i < n → m' (d + i) = m (s + i % (d - s))) ∧
      SameOff m m' (fun x => d ≤ x ∧ x < d + n)
  | 0, m, s, d, _, _, _ => ⟨m, rfl, fun i h => by omega, fun _ _ => rfl⟩
  | n + 1, m, s, d, h, hs, hd => by
    obtain ⟨v, hv⟩ := Option.isSome_iff_exists.1 (hs 0 (by omega))
    rw [Nat.add_zero] at hv
    obtain ⟨m', e, hm, hf⟩ := copy_repeats n (m := upd m d (some v)) (s := s + 1) (d := d + 1) (by omega)
      (Live.upd fun i hi => by rw [show s + 1 + i = s + (i + 1) by omega]; exact hs _ (by omega))
      (Live.upd fun i hi => by rw [show d + 1 + i = d + (i + 1) by omega]; exact hd _ (by omega))
    refine ⟨m', ?_, ?_, ?_⟩
    · rw [copy, assignAt_spec hv (show (m d).isSome from hd 0 (by omega))]
      show copy _ _ _ _ = _
      rw [e, show s + 1 + n = s + (n + 1) by omega, show d + 1 + n = d + (n + 1) by omega]
    · intro i hi
      cases i with
      | zero => rw [hf _ (by omega), Nat.add_zero, upd_same, Nat.zero_mod, Nat.add_zero, hv]
      | succ i =>
        rw [show d + (i + 1) = d + 1 + i by omega, hm i (by omega), show d + 1 - (s + 1) = d - s by omega]
        rcases succ_mod_cases i (d - s) (by omega) with ⟨h1, h2⟩ | ⟨h1, h2⟩
        · rw [upd_other _ _ (by omega), h2, show s + 1 + i % (d - s) = s + (i % (d - s) + 1) by omega]
        · rw [show s + 1 + i % (d - s) = d by omega, upd_same, h2, Nat.add_zero, hv]
    · intro x hx
      rw [hf x (by omega), upd_other _ _ (by omega)]

theorem copyBackward_backwards : ∀ (n : Nat) {m : Mem α} {s d : Nat}, s ≤ d → Live m s n → Live m d n →
    ∃ m', m.copyBackward (s + n) (d + n) n = some (m', d) ∧ (∀ i, i < n → m' (d + i) = m (s + i)) ∧
      SameOff m m' (fun x => d ≤ x ∧ x < d + n)
  | 0, m, s, d, _, _, _ => ⟨m, rfl, fun i h => by omega, fun _ _ => rfl⟩
  | n + 1, m, s, d, h, hs, hd => by
    obtain ⟨v, hv⟩ := Option.isSome_iff_exists.1 (hs n (by omega))
    obtain ⟨m', e, hm, hf⟩ := copyBackward_backwards n (m := upd m (d + n) (some v)) (s := s) (d := d) h
      (Live.upd fun i hi => hs _ (by omega)) (Live.upd fun i hi => hd _ (by omega))
    refine ⟨m', ?_, ?_, ?_⟩
    · rw [copyBackward, if_neg (by omega), show d + (n + 1) - 1 = d + n by omega, show s + (n + 1) - 1 = s + n by omega,
        assignAt_spec hv (hd n (by omega))]
      exact e
    · intro i hi
      rcases Nat.lt_or_ge i n with h1 | h1
      · rw [hm i h1, upd_other _ _ (by omega)]
      · rw [show i = n by omega, hf _ (by omega), upd_same, hv]
    · intro x hx
      rw [hf x (by omega), upd_other _ _ (by omega)]

theorem copyBackward_repeats : ∀ (n : Nat) {m : Mem α} {s d : Nat}, d < s → Live m s n → Live m d n →
    ∃ m', m.copyBackward (s + n) (d + n) n = some (m', d) ∧
      (∀ i, i < n → m' (d + n - 1 - i) = m (s + n - 1 - i % (s - d))) ∧ SameOff m m' (fun x => d ≤ x ∧ x < d + n)
  | 0, m, s, d, _, _, _ => ⟨m, rfl, fun i h => by omega, fun _ _ => rfl⟩
  | n + 1, m, s, d, h, hs, hd => by
    obtain ⟨v, hv⟩ := Option.isSome_iff_exists.1 (hs n (by omega))
    obtain ⟨m', e, hm, hf⟩ := copyBackward_repeats n (m := upd m (d + n) (some v)) (s := s) (d := d) h
      (Live.upd fun i hi => hs _ (by omega)) (Live.upd fun i hi => hd _ (by omega))
    refine ⟨m', ?_, ?_, ?_⟩
    · rw [copyBackward, if_neg (by omega), show d + (n + 1) - 1 = d + n by omega, show s + (n + 1) - 1 = s + n by omega,
        assignAt_spec hv (hd n (by omega))]
      exact e
    · intro i hi
      cases i with
      | zero => rw [show d + (n + 1) - 1 - 0 = d + n by omega, hf _ (by omega), upd_same, Nat.zero_mod, show s + (n + 1) - 1 - 0 = s + n by omega, hv]
      | succ i =>
        rw [show d + (n + 1) - 1 - (i + 1) = d + n - 1 - i by omega, hm i (by omega)]
        have hle := Nat.mod_le i (s - d)
        rcases succ_mod_cases i (s - d) (by omega) with ⟨h1, h2⟩ | ⟨h1, h2⟩
        · rw [upd_other _ _ (by omega), h2, show s + (n + 1) - 1 - (i % (s - d) + 1) = s + n - 1 - i % (s - d) by omega]
        · rw [show s + n - 1 - i % (s - d) = d + n by omega, upd_same, h2, show s + (n + 1) - 1 - 0 = s + n by omega, hv]
    · intro x hx
      rw [hf x (by omega), upd_other _ _ (by omega)]

/-- The segments with the same contents as addresses. -/
theorem Seg.live {m : Mem α} {b : Nat} {xs : List α} (h : Seg m b xs) : Live m b xs.length := fun i hi => by rw [h i hi]; rfl

/-- **C89** `copy` of a sequence to objects that do not begin inside of the sequence (after its first element) gives these objects the values of the
sequence, also if the two overlap; nothing else changes, and the returned positions are the ends. -/
theorem C89_copy {m : Mem α} {s d : Nat} {xs : List α} (hs : Seg m s xs) (hd : Live m d xs.length) (h : d ≤ s ∨ s + xs.length ≤ d) :
    ∃ m', m.copy s d xs.length = some (m', s + xs.length, d + xs.length) ∧ Seg m' d xs ∧
      SameOff m m' (fun x => d ≤ x ∧ x < d + xs.length) := by
  rcases Nat.lt_or_ge s d with h1 | h1
  · obtain ⟨m', e, hm, hf⟩ := copy_repeats _ h1 hs.live hd
    refine ⟨m', e, fun i hi => ?_, hf⟩
    rw [hm i hi, Nat.mod_eq_of_lt (by omega)]
    exact hs i hi
  · obtain ⟨m', e, hm, hf⟩ := copy_forwards _ h1 hs.live hd
    exact ⟨m', e, fun i hi => by rw [hm i hi]; exact hs i hi, hf⟩

theorem assignAt_needs {m m' : Mem α} {dst src : Nat} (h : m.assignAt dst src = some m') :
    (m src).isSome ∧ (m dst).isSome ∧ ∀ b, (m' b).isSome = (m b).isSome := by
  unfold assignAt at h
  split at h
  · rename_i v w h1 h2
    cases h
    refine ⟨by rw [h1]; rfl, by rw [h2]; rfl, fun b => ?_⟩
    by_cases e : b = dst
    · subst e; simp [h2]
    · rw [upd_other _ _ e]
  · cases h

/-- C89, `copy` neither makes nor ends objects: it is only defined if there are objects at all of its input and output, and then there are objects where there were objects
before. -/
theorem C89_copy_needs : ∀ {n : Nat} {m m' : Mem α} {s d : Nat} {p : Nat × Nat}, m.copy s d n = some (m', p) →
    Live m s n ∧ Live m d n ∧ ∀ b, (m' b).isSome = (m b).isSome
  | 0, m, m', s, d, p, h => by
    simp only [copy, Option.some.injEq, Prod.mk.injEq] at h
    obtain ⟨rfl, -⟩ := h
    exact ⟨fun i hi => absurd hi (Nat.not_lt_zero _), fun i hi => absurd hi (Nat.not_lt_zero _), fun _ => rfl⟩
  | n + 1, m, m', s, d, p, h => by
    simp only [copy, Option.bind_eq_bind, Option.bind_eq_some_iff] at h
    obtain ⟨m1, h1, h2⟩ := h
    obtain ⟨a1, a2, a3⟩ := assignAt_needs h1
    obtain ⟨b1, b2, b3⟩ := C89_copy_needs h2
    refine ⟨fun i hi => ?_, fun i hi => ?_, fun b => (b3 b).trans (a3 b)⟩
    · cases i with
      | zero => exact a1
      | succ i => rw [show s + (i + 1) = s + 1 + i by omega, ← a3]; exact b1 i (by omega)
    · cases i with
      | zero => exact a2
      | succ i => rw [show d + (i + 1) = d + 1 + i by omega, ← a3]; exact b2 i (by omega)

/-- **C89** If the output begins `k` elements behind the beginning of the sequence and inside of it, the first `k` elements are written again and
again: the result is right only for sequences that repeat themselves every `k` elements. -/
theorem C89_copy_inside {m : Mem α} {s k : Nat} {xs : List α} (hs : Seg m s xs) (hk : 0 < k) (hd : Live m (s + k) xs.length) :
    ∃ m', m.copy s (s + k) xs.length = some (m', s + xs.length, s + k + xs.length) ∧
      (∀ i, i < xs.length → m' (s + k + i) = m (s + i % k)) ∧
      (Seg m' (s + k) xs ↔ ∀ i (h : i < xs.length), xs[i] = xs[i % k]'(lt_of_le_of_lt (Nat.mod_le _ _) h)) := by
  obtain ⟨m', e, hm, -⟩ := copy_repeats _ (show s < s + k by omega) hs.live hd
  have hm' : ∀ i (h : i < xs.length), m' (s + k + i) = some (xs[i % k]'(lt_of_le_of_lt (Nat.mod_le _ _) h)) := by
    intro i hi
    rw [hm i hi, show s + k - s = k by omega]
    exact hs _ _
  refine ⟨m', e, fun i hi => by rw [hm i hi, show s + k - s = k by omega], ?_, ?_⟩
  · intro h i hi
    have := h i hi
    rw [hm' i hi] at this
    exact (Option.some.inj this).symm
  · intro h i hi
    rw [hm' i hi, ← h i hi]

/-- **C89** `copy_backward` to objects that do not end inside of the sequence (before its last element). -/
theorem C89_copy_backward {m : Mem α} {s d : Nat} {xs : List α} (hs : Seg m s xs) (hd : Live m d xs.length) (h : s ≤ d ∨ d + xs.length ≤ s) :
    ∃ m', m.copyBackward (s + xs.length) (d + xs.length) xs.length = some (m', d) ∧ Seg m' d xs ∧
      SameOff m m' (fun x => d ≤ x ∧ x < d + xs.length) := by
  rcases Nat.lt_or_ge d s with h1 | h1
  · obtain ⟨m', e, hm, hf⟩ := copyBackward_repeats _ h1 hs.live hd
    refine ⟨m', e, fun i hi => ?_, hf⟩
    have := hm (xs.length - 1 - i) (by omega)
    rw [Nat.mod_eq_of_lt (by omega), show d + xs.length - 1 - (xs.length - 1 - i) = d + i by omega,
      show s + xs.length - 1 - (xs.length - 1 - i) = s + i by omega] at this
    rw [this]; exact hs i hi
  · obtain ⟨m', e, hm, hf⟩ := copyBackward_backwards _ h1 hs.live hd
    exact ⟨m', e, fun i hi => by rw [hm i hi]; exact hs i hi, hf⟩

/-- **C89** If the output of `copy_backward` ends `k` elements before the end of the sequence and inside of it, the last `k` elements are written
again and again. -/
theorem C89_copy_backward_inside {m : Mem α} {d k : Nat} {xs : List α} (hs : Seg m (d + k) xs) (hk : 0 < k) (hd : Live m d xs.length) :
    ∃ m', m.copyBackward (d + k + xs.length) (d + xs.length) xs.length = some (m', d) ∧
      (∀ i, i < xs.length → m' (d + xs.length - 1 - i) = m (d + k + xs.length - 1 - i % k)) ∧
      (Seg m' d xs ↔ ∀ i (h : i < xs.length), xs.reverse[i]'(by simpa using h) =
        xs.reverse[i % k]'(by simpa using lt_of_le_of_lt (Nat.mod_le _ _) h)) := by
  obtain ⟨m', e, hm, -⟩ := copyBackward_repeats _ (show d < d + k by omega) hs.live hd
  have hm' : ∀ i (h : i < xs.length), m' (d + (xs.length - 1 - i)) = some (xs.reverse[i % k]'(by simpa using lt_of_le_of_lt (Nat.mod_le _ _) h)) := by
    intro i hi
    have hle := Nat.mod_le i k
    rw [show d + (xs.length - 1 - i) = d + xs.length - 1 - i by omega, hm i hi, show d + k - d = k by omega,
      show d + k + xs.length - 1 - i % k = d + k + (xs.length - 1 - i % k) by omega, List.getElem_reverse]
    exact hs _ _
  refine ⟨m', e, fun i hi => by rw [hm i hi, show d + k - d = k by omega], ?_, ?_⟩
  · intro h i hi
    have := h (xs.length - 1 - i) (by omega)
    rw [hm' i hi] at this
    rw [List.getElem_reverse]
    exact (Option.some.inj this).symm
  · intro h i hi
    have h1 := hm' (xs.length - 1 - i) (by omega)
    have h2 := h (xs.length - 1 - i) (by omega)
    rw [← h2, List.getElem_reverse] at h1
    simp only [show xs.length - 1 - (xs.length - 1 - i) = i by omega] at h1
    exact h1

/-- The number of elements that `copy_truncate` copies. -/
theorem copyTruncate_eq : ∀ (fuel : Nat) {m : Mem α} {s d n k : Nat}, n ≤ fuel →
    m.copyTruncate s (s + n) d (d + k) fuel = m.copy s d (min n k)
  | 0, m, s, d, n, k, h => by
    rw [copyTruncate, if_neg (by omega), show min n k = 0 by omega, copy]
  | fuel + 1, m, s, d, n, k, h => by
    rw [copyTruncate]
    by_cases h0 : n = 0 ∨ k = 0
    · rw [if_neg (by omega), show min n k = 0 by omega, copy]
    · rw [if_pos (by omega)]
      obtain ⟨n, rfl⟩ : ∃ n', n = n' + 1 := ⟨n - 1, by omega⟩
      obtain ⟨k, rfl⟩ : ∃ k', k = k' + 1 := ⟨k - 1, by omega⟩
      rw [show min (n + 1) (k + 1) = min n k + 1 by omega, copy]
      congr 1
      funext m'
      rw [show s + (n + 1) = s + 1 + n by omega, show d + (k + 1) = d + 1 + k by omega, copyTruncate_eq fuel (by omega)]

/-- **C89** `copy_truncate` copies as many elements as both ranges have, and returns where it stopped in both. -/
theorem C89_copy_truncate {m : Mem α} {s d k : Nat} {xs : List α} (hs : Seg m s xs) (hd : Live m d (min xs.length k)) (h : d ≤ s ∨ s + xs.length ≤ d) :
    ∃ m', m.copyTruncate s (s + xs.length) d (d + k) xs.length = some (m', s + min xs.length k, d + min xs.length k) ∧
      Seg m' d (xs.take k) ∧ SameOff m m' (fun x => d ≤ x ∧ x < d + min xs.length k) := by
  have ht : (xs.take k).length = min xs.length k := by simp [Nat.min_comm]
  have hs' : Seg m s (xs.take k) := fun i hi => by
    have := hs i (by simp at hi; omega)
    rw [this]; simp
  obtain ⟨m', e, hm, hf⟩ := C89_copy hs' (d := d) (by rw [ht]; exact hd) (by rw [ht]; omega)
  rw [ht] at e hf
  exact ⟨m', by rw [copyTruncate_eq _ (Nat.le_refl _)]; exact e, hm, hf⟩

/-- **C89** `uninitialized_relocate` towards the front: if the storage between the output and the sequence (or all of the output) is free, the
elements are afterwards in the output and nowhere else. -/
theorem C89_relocate : ∀ {xs : List α} {m : Mem α} {s d : Nat}, Seg m s xs → d < s → Raw m d (min xs.length (s - d)) →
    ∃ m', m.relocate s d xs.length = some (m', d + xs.length) ∧ Seg m' d xs ∧
      (∀ x, d + xs.length ≤ x → s ≤ x → x < s + xs.length → m' x = none) ∧
      SameOff m m' (fun x => (d ≤ x ∧ x < d + xs.length) ∨ (s ≤ x ∧ x < s + xs.length))
  | [], m, s, d, _, _, _ => ⟨m, rfl, seg_nil _ _, fun x h1 h2 h3 => by simp at h3; omega, fun _ _ => rfl⟩
  | x :: xs, m, s, d, hs, h, hr => by
    simp only [List.length_cons] at hr
    obtain ⟨h0, h1⟩ := seg_cons.1 hs
    obtain ⟨m1, e1, d1, s1, f1⟩ := relocateAt_spec h0 (dst := d) (by simpa using hr 0 (by omega))
    obtain ⟨m2, e2, d2, r2, f2⟩ := C89_relocate (s := s + 1) (d := d + 1) (h1.frame f1 (fun i hi => by omega)) (by omega) (by
      intro i hi
      by_cases e : d + 1 + i = s
      · rw [e]; exact s1
      · rw [f1 _ (by omega), show d + 1 + i = d + (i + 1) by omega]; exact hr (i + 1) (by omega))
    refine ⟨m2, ?_, ?_, ?_, ?_⟩
    · rw [List.length_cons, relocate, e1]
      show relocate _ _ _ _ = _
      rw [e2, show d + 1 + xs.length = d + (xs.length + 1) by omega]
    · rw [seg_cons]
      exact ⟨by rw [f2 d (by omega)]; exact d1, d2⟩
    · intro y hy1 hy2 hy3
      simp only [List.length_cons] at hy1 hy3
      by_cases e : y = s
      · subst e; rw [f2 y (by omega)]; exact s1
      · exact r2 y (by omega) (by omega) (by omega)
    · intro z hz
      simp only [List.length_cons] at hz
      rw [f2 z (by omega), f1 z (by omega)]

/-- **C89** `uninitialized_relocate` to a place that begins inside of the sequence is undefined for every non-empty sequence. -/
theorem C89_relocate_inside {m : Mem α} {s d : Nat} {xs : List α} (hs : Seg m s xs) (h1 : s ≤ d) (h2 : d < s + xs.length) :
    m.relocate s d xs.length = none := by
  cases xs with
  | nil => simp at h2; omega
  | cons x xs =>
    have e : m d = some ((x :: xs)[d - s]'(by omega)) := by
      have := hs (d - s) (by omega)
      rwa [show s + (d - s) = d by omega] at this
    have : m.relocateAt d s = none := by rw [relocateAt, e]; cases m s <;> rfl
    rw [List.length_cons, relocate, this]; rfl

/-- **C89** `uninitialized_relocate_backward` towards the back. -/
theorem C89_relocate_backward {m : Mem α} {s d : Nat} {xs : List α} (hs : Seg m s xs) (h : s < d)
    (hr : ∀ x, s + xs.length ≤ x → d ≤ x → x < d + xs.length → m x = none) :
    ∃ m', m.relocateBackward (s + xs.length) (d + xs.length) xs.length = some (m', d) ∧ Seg m' d xs ∧
      Raw m' s (min xs.length (d - s)) ∧ SameOff m m' (fun x => (d ≤ x ∧ x < d + xs.length) ∨ (s ≤ x ∧ x < s + xs.length)) := by
  induction xs using List.reverseRec generalizing m with
  | nil => exact ⟨m, rfl, seg_nil _ _, fun i hi => by simp at hi, fun _ _ => rfl⟩
  | append_singleton xs x ih =>
    simp only [List.length_append, List.length_singleton] at *
    obtain ⟨h1, h2⟩ := seg_append.1 hs
    have h0 := (seg_cons.1 h2).1
    obtain ⟨m1, e1, d1, s1, f1⟩ := relocateAt_spec h0 (dst := d + xs.length) (hr _ (by omega) (by omega) (by omega))
    obtain ⟨m2, e2, d2, r2, f2⟩ := ih (h1.frame f1 (fun i hi => by omega)) (by
      intro y hy1 hy2 hy3
      by_cases e : y = s + xs.length
      · rw [e]; exact s1
      · rw [f1 _ (by omega)]; exact hr y (by omega) (by omega) (by omega))
    refine ⟨m2, ?_, ?_, ?_, ?_⟩
    · rw [relocateBackward, if_neg (by omega), show d + (xs.length + 1) - 1 = d + xs.length by omega,
        show s + (xs.length + 1) - 1 = s + xs.length by omega, e1]
      exact e2
    · rw [seg_append]
      exact ⟨d2, seg_cons.2 ⟨by rw [f2 _ (by omega)]; exact d1, seg_nil _ _⟩⟩
    · intro i hi
      by_cases e : i = xs.length
      · rw [e, f2 _ (by omega)]; exact s1
      · exact r2 i (by omega)
    · intro z hz
      rw [f2 z (by omega), f1 z (by omega)]

/-- **C89** `uninitialized_relocate_backward` to a place that ends inside of the sequence is undefined. -/
theorem C89_relocate_backward_inside {m : Mem α} {s d : Nat} {xs : List α} (hs : Seg m s xs) (h1 : d ≤ s) (h2 : s < d + xs.length) :
    m.relocateBackward (s + xs.length) (d + xs.length) xs.length = none := by
  obtain ⟨n, hn⟩ : ∃ n, xs.length = n + 1 := ⟨xs.length - 1, by omega⟩
  have e : m (d + n) = some (xs[d + n - s]'(by omega)) := by
    have := hs (d + n - s) (by omega)
    rwa [show s + (d + n - s) = d + n by omega] at this
  rw [hn, relocateBackward, if_neg (by omega), show d + (n + 1) - 1 = d + n by omega, show s + (n + 1) - 1 = s + n by omega]
  have : m.relocateAt (d + n) (s + n) = none := by rw [relocateAt, e]; cases m (s + n) <;> rfl
  rw [this]; rfl

/-! ## Examples -/

/-- The letters `a b c d e` from the address 2 on. -/
def letters : Mem Char := fun x => ['?', '?', 'a', 'b', 'c', 'd', 'e', '?', '?'][x]?

/-- Two places to the front, overlapping. -/
example : ∃ m', letters.copy 2 0 5 = some (m', 7, 5) ∧ (List.range 7).map m' = ['a', 'b', 'c', 'd', 'e', 'd', 'e'].map some := ⟨_, rfl, rfl⟩

/-- Two places to the back with the wrong function: the letters `a b` are repeated. -/
example : ∃ m', letters.copy 2 4 5 = some (m', 7, 9) ∧ (List.range 9).map m' = ['?', '?', 'a', 'b', 'a', 'b', 'a', 'b', 'a'].map some := ⟨_, rfl, rfl⟩

/-- Two places to the back with the right one. -/
example : ∃ m', letters.copyBackward 7 9 5 = some (m', 4) ∧ (List.range 9).map m' = ['?', '?', 'a', 'b', 'a', 'b', 'c', 'd', 'e'].map some :=
  ⟨_, rfl, rfl⟩

/-- Two places to the front with the wrong one: the letters `d e` are repeated. -/
example : ∃ m', letters.copyBackward 7 5 5 = some (m', 0) ∧ (List.range 7).map m' = ['e', 'd', 'e', 'd', 'e', 'd', 'e'].map some :=
  ⟨_, rfl, rfl⟩

/-- The hypotheses of the theorems are met. -/
example : Seg letters 2 ['a', 'b', 'c', 'd', 'e'] ∧ Live letters 0 5 ∧ Live letters 4 5 := by
  refine ⟨fun i hi => ?_, fun i hi => ?_, fun i hi => ?_⟩
  · simp only [List.length_cons, List.length_nil] at hi
    interval_cases i <;> rfl
  · interval_cases i <;> rfl
  · interval_cases i <;> rfl

/-- Objects at 1 and 2 only. -/
def two : Mem Char := fun x => if x = 1 then some 'a' else if x = 2 then some 'b' else none

example : Seg two 1 ['a', 'b'] ∧ Raw two 0 1 ∧ (∃ m', two.relocate 1 0 2 = some (m', 2) ∧ (List.range 4).map m' = [some 'a', some 'b', none, none]) ∧
    (∃ m', two.relocateBackward 3 4 2 = some (m', 2) ∧ (List.range 4).map m' = [none, none, some 'a', some 'b']) ∧
    two.relocate 1 2 2 = none ∧ two.relocateBackward 3 2 2 = none := by
  refine ⟨fun i hi => ?_, fun i hi => ?_, ⟨_, rfl, rfl⟩, ⟨_, rfl, rfl⟩, rfl, rfl⟩
  · simp at hi; interval_cases i <;> rfl
  · interval_cases i; rfl

end Mem

end Verif.Algo
