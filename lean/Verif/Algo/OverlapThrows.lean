import Verif.Algo.Overlap

/-!
# Copying within one array when an assignment throws (property C89)

`copy`, `copy_backward` and `copy_truncate` of `Overlap.lean`, where the assignment of an element may throw. It then leaves anything in the object
that is assigned to.
-/

namespace Verif.Algo.Mem

variable {α : Type}

/-- How a copy ends: with the positions it returns, with an exception, or in undefined behaviour. -/
inductive CopyEnd (α P : Type) where
  | done (m : Mem α) (p : P)
  | threw (m : Mem α)
  | ub

/-- One `*output = *it` (`algorithms/copy.cpp` 37, 51): `fails` is what it leaves if it throws. Both objects have to exist. -/
def assignOr {P : Type} (fails : Option α) (m : Mem α) (dst src : Nat) (k : Mem α → CopyEnd α P) : CopyEnd α P :=
  match m src, m dst, fails with
  | some v, some _, none => k (upd m dst (some v))
  | some _, some _, some w => .threw (upd m dst (some w))
  | _, _, _ => .ub

/-- `copy` (`algorithms/copy.cpp` 34-41 with the loop of `algorithms/copy_or_relocate_from.cpp` 46-50); `j` is the number of assignments so far. -/
def copyX (as : Nat → Option α) (m : Mem α) (j it output : Nat) : Nat → CopyEnd α (Nat × Nat)
  | 0 => .done m (it, output)
  | n + 1 => assignOr (as j) m output it fun m => copyX as m (j + 1) (it + 1) (output + 1) n

/-- `copy_backward` (`algorithms/copy.cpp` 100-105). -/
def copyBackwardX (as : Nat → Option α) (m : Mem α) (j it out : Nat) : Nat → CopyEnd α Nat
  | 0 => .done m out
  | n + 1 =>
    if it = 0 ∨ out = 0 then .ub
    else assignOr (as j) m (out - 1) (it - 1) fun m => copyBackwardX as m (j + 1) (it - 1) (out - 1) n

/-- `copy_truncate` (`algorithms/copy.cpp` 43-56, 67-73). The fuel of the loop is the number of elements of the input. -/
def copyTruncateX (as : Nat → Option α) (m : Mem α) (j inFirst inLast outFirst outLast : Nat) : Nat → CopyEnd α (Nat × Nat)
  | 0 => if inFirst ≠ inLast ∧ outFirst ≠ outLast then .ub else .done m (inFirst, outFirst)
  | n + 1 =>
    if inFirst ≠ inLast ∧ outFirst ≠ outLast then
      assignOr (as j) m outFirst inFirst fun m => copyTruncateX as m (j + 1) (inFirst + 1) inLast (outFirst + 1) outLast n
    else .done m (inFirst, outFirst)

/-! ## Up to the assignment that throws, these are the copies that do not -/

theorem assignOr_none {P : Type} {m m' : Mem α} {dst src : Nat} (h : m.assignAt dst src = some m') (k : Mem α → CopyEnd α P) : assignOr none m dst src k = k m' := by
  unfold assignAt at h
  split at h
  · rename_i v w h1 h2
    cases h
    simp only [assignOr, h1, h2]
  · cases h

theorem copyX_quiet {as : Nat → Option α} : ∀ {n : Nat} {m m' : Mem α} {j s d : Nat} {p : Nat × Nat}, (∀ i, i < n → as (j + i) = none) → m.copy s d n = some (m', p) →
    copyX as m j s d n = .done m' p
  | 0, _, _, _, _, _, _, _, h => by cases h; rfl
  | n + 1, m, m', j, s, d, p, ha, h => by
    simp only [copy, Option.bind_eq_bind, Option.bind_eq_some_iff] at h
    obtain ⟨m1, h1, h2⟩ := h
    rw [copyX, show as j = none from ha 0 (by omega), assignOr_none h1]
    exact copyX_quiet (fun i hi => by rw [show j + 1 + i = j + (i + 1) by omega]; exact ha _ (by omega)) h2

theorem copyX_threw {as : Nat → Option α} {w : α} : ∀ {i n : Nat} {m m' : Mem α} {j s d : Nat} {p : Nat × Nat}, i < n → (∀ i', i' < i → as (j + i') = none) →
    as (j + i) = some w → m.copy s d i = some (m', p) → (m' (s + i)).isSome → (m' (d + i)).isSome → copyX as m j s d n = .threw (upd m' (d + i) (some w))
  | 0, n + 1, m, m', j, s, d, p, _, _, hw, h, hs, hd => by
    cases h
    obtain ⟨u, hu⟩ := Option.isSome_iff_exists.1 hs
    obtain ⟨v, hv⟩ := Option.isSome_iff_exists.1 hd
    rw [Nat.add_zero] at hu hv hw
    simp only [copyX, assignOr, hw, hu, hv, Nat.add_zero]
  | i + 1, n + 1, m, m', j, s, d, p, hi, ha, hw, h, hs, hd => by
    simp only [copy, Option.bind_eq_bind, Option.bind_eq_some_iff] at h
    obtain ⟨m1, h1, h2⟩ := h
    rw [copyX, show as j = none from ha 0 (by omega), assignOr_none h1, show d + (i + 1) = d + 1 + i by omega]
    exact copyX_threw (by omega) (fun k hk => by rw [show j + 1 + k = j + (k + 1) by omega]; exact ha _ (by omega))
      (by rw [show j + 1 + i = j + (i + 1) by omega]; exact hw) h2 (by rw [show s + 1 + i = s + (i + 1) by omega]; exact hs)
      (by rw [show d + 1 + i = d + (i + 1) by omega]; exact hd)

theorem copyTruncateX_eq {as : Nat → Option α} : ∀ (fuel : Nat) {m : Mem α} {j s d n k : Nat}, n ≤ fuel →
    copyTruncateX as m j s (s + n) d (d + k) fuel = copyX as m j s d (min n k)
  | 0, m, j, s, d, n, k, h => by
    rw [copyTruncateX, if_neg (by omega), show min n k = 0 by omega, copyX]
  | fuel + 1, m, j, s, d, n, k, h => by
    rw [copyTruncateX]
    by_cases h0 : n = 0 ∨ k = 0
    · rw [if_neg (by omega), show min n k = 0 by omega, copyX]
    · rw [if_pos (by omega)]
      obtain ⟨n, rfl⟩ : ∃ n', n = n' + 1 := ⟨n - 1, by omega⟩
      obtain ⟨k, rfl⟩ : ∃ k', k = k' + 1 := ⟨k - 1, by omega⟩
      rw [show min (n + 1) (k + 1) = min n k + 1 by omega, copyX]
      congr 1
      funext m'
      rw [show s + (n + 1) = s + 1 + n by omega, show d + (k + 1) = d + 1 + k by omega, copyTruncateX_eq fuel (by omega)]

theorem copyBackwardX_quiet {as : Nat → Option α} : ∀ {n : Nat} {m m' : Mem α} {j s d : Nat} {p : Nat}, (∀ i, i < n → as (j + i) = none) →
    m.copyBackward s d n = some (m', p) → copyBackwardX as m j s d n = .done m' p
  | 0, _, _, _, _, _, _, _, h => by cases h; rfl
  | n + 1, m, m', j, s, d, p, ha, h => by
    rw [copyBackward] at h
    rw [copyBackwardX]
    split at h
    · cases h
    · rename_i h0
      simp only [Option.bind_eq_bind, Option.bind_eq_some_iff] at h
      obtain ⟨m1, h1, h2⟩ := h
      rw [if_neg h0, show as j = none from ha 0 (by omega), assignOr_none h1]
      exact copyBackwardX_quiet (fun i hi => by rw [show j + 1 + i = j + (i + 1) by omega]; exact ha _ (by omega)) h2

theorem copyBackwardX_threw {as : Nat → Option α} {w : α} : ∀ {i n : Nat} {m m' : Mem α} {j s d : Nat} {p : Nat}, i < n → (∀ i', i' < i → as (j + i') = none) →
    as (j + i) = some w → n ≤ s → n ≤ d → m.copyBackward s d i = some (m', p) → (m' (s - 1 - i)).isSome → (m' (d - 1 - i)).isSome →
    copyBackwardX as m j s d n = .threw (upd m' (d - 1 - i) (some w))
  | 0, n + 1, m, m', j, s, d, p, _, _, hw, h1, h2, h, hs, hd => by
    cases h
    obtain ⟨u, hu⟩ := Option.isSome_iff_exists.1 hs
    obtain ⟨v, hv⟩ := Option.isSome_iff_exists.1 hd
    rw [Nat.sub_zero] at hu hv
    rw [Nat.add_zero] at hw
    rw [copyBackwardX, if_neg (by omega)]
    simp only [assignOr, hw, hu, hv, Nat.sub_zero]
  | i + 1, n + 1, m, m', j, s, d, p, hi, ha, hw, l1, l2, h, hs, hd => by
    rw [copyBackward, if_neg (by omega)] at h
    simp only [Option.bind_eq_bind, Option.bind_eq_some_iff] at h
    obtain ⟨m1, h1, h2⟩ := h
    rw [copyBackwardX, if_neg (by omega), show as j = none from ha 0 (by omega), assignOr_none h1, show d - 1 - (i + 1) = d - 1 - 1 - i by omega]
    exact copyBackwardX_threw (by omega) (fun k hk => by rw [show j + 1 + k = j + (k + 1) by omega]; exact ha _ (by omega))
      (by rw [show j + 1 + i = j + (i + 1) by omega]; exact hw) (by omega) (by omega) h2 (by rw [show s - 1 - 1 - i = s - 1 - (i + 1) by omega]; exact hs)
      (by rw [show d - 1 - 1 - i = d - 1 - (i + 1) by omega]; exact hd)

/-! ## What the caller may rely on -/

/-- **C89** If no assignment throws, `copy` is as in `C89_copy`. If that of the element number `i` is the first to throw, the elements before it have
been copied, the object it was assigned to holds what the assignment left, and nothing else has changed. -/
theorem C89_copy_throws (as : Nat → Option α) {m : Mem α} {s d : Nat} {xs : List α} (hs : Seg m s xs) (hd : Live m d xs.length) (h : d ≤ s ∨ s + xs.length ≤ d) :
    (∃ m', copyX as m 0 s d xs.length = .done m' (s + xs.length, d + xs.length) ∧ (∀ i, i < xs.length → as i = none) ∧ Seg m' d xs ∧
      SameOff m m' fun x => d ≤ x ∧ x < d + xs.length) ∨
    ∃ m' i w, copyX as m 0 s d xs.length = .threw m' ∧ i < xs.length ∧ as i = some w ∧ (∀ k, k < i → as k = none) ∧ Seg m' d (xs.take i ++ [w]) ∧
      SameOff m m' fun x => d ≤ x ∧ x ≤ d + i := by
  by_cases hq : ∀ i, i < xs.length → as i = none
  · obtain ⟨m', e, h1, h2⟩ := C89_copy hs hd h
    exact .inl ⟨m', copyX_quiet (fun i hi => by rw [Nat.zero_add]; exact hq i hi) e, hq, h1, h2⟩
  · right
    obtain ⟨i, ⟨hi, hw⟩, hmin⟩ : ∃ i, (i < xs.length ∧ as i ≠ none) ∧ ∀ k, k < i → ¬ (k < xs.length ∧ as k ≠ none) := by
      classical
      have hex : ∃ i, i < xs.length ∧ as i ≠ none := by
        by_contra hn
        exact hq fun i hi => by by_contra hw; exact hn ⟨i, hi, hw⟩
      exact ⟨Nat.find hex, Nat.find_spec hex, fun k hk => Nat.find_min hex hk⟩
    obtain ⟨w, hw⟩ := Option.ne_none_iff_exists'.1 hw
    have hbefore : ∀ k, k < i → as k = none := fun k hk => by
      by_contra hn
      exact hmin k hk ⟨by omega, hn⟩
    have ht : (xs.take i).length = i := by simp; omega
    have hs' : Seg m s (xs.take i) := fun k hk => by
      rw [hs k (by omega), List.getElem_take]
    obtain ⟨m1, e, h1, h2⟩ := C89_copy hs' (d := d) (fun k hk => hd k (by omega)) (by omega)
    rw [ht] at e h2
    have off : ∀ x, (m x).isSome → (m1 x).isSome := by
      intro x hx
      by_cases hr : d ≤ x ∧ x < d + i
      · rw [show x = d + (x - d) by omega, h1 (x - d) (by omega)]; rfl
      · rw [h2 x hr]; exact hx
    have et := copyX_threw (as := as) (w := w) (j := 0) hi (by intro k hk; rw [Nat.zero_add]; exact hbefore k hk) (by rw [Nat.zero_add]; exact hw) e
      (off _ (by rw [hs i hi]; rfl)) (off _ (hd i hi))
    refine ⟨_, i, w, et, hi, hw, hbefore, fun k hk => ?_, fun x hx => ?_⟩
    · rw [List.length_append, ht, List.length_singleton] at hk
      by_cases hk' : k = i
      · subst hk'
        rw [upd_same, List.getElem_append_right (by omega)]
        simp
      · rw [upd_other _ _ (by omega), List.getElem_append_left (by omega)]
        exact h1 k (by omega)
    · rw [upd_other _ _ (by rintro rfl; exact hx ⟨by omega, by omega⟩)]
      exact h2 x fun hc => hx ⟨hc.1, by omega⟩

/-- **C89** The same of `copy_truncate`. -/
theorem C89_copy_truncate_throws (as : Nat → Option α) {m : Mem α} {s d k : Nat} {xs : List α} (hs : Seg m s xs) (hd : Live m d (min xs.length k))
    (h : d ≤ s ∨ s + xs.length ≤ d) :
    (∃ m', copyTruncateX as m 0 s (s + xs.length) d (d + k) xs.length = .done m' (s + min xs.length k, d + min xs.length k) ∧
      (∀ i, i < min xs.length k → as i = none) ∧ Seg m' d (xs.take k) ∧ SameOff m m' fun x => d ≤ x ∧ x < d + min xs.length k) ∨
    ∃ m' i w, copyTruncateX as m 0 s (s + xs.length) d (d + k) xs.length = .threw m' ∧ i < min xs.length k ∧ as i = some w ∧ (∀ l, l < i → as l = none) ∧
      Seg m' d (xs.take i ++ [w]) ∧ SameOff m m' fun x => d ≤ x ∧ x ≤ d + i := by
  have ht : (xs.take k).length = min xs.length k := by simp [Nat.min_comm]
  have hs' : Seg m s (xs.take k) := fun i hi => by
    rw [hs i (by simp at hi; omega), List.getElem_take]
  have key := C89_copy_throws as hs' (d := d) (by rw [ht]; exact hd) (by rw [ht]; omega)
  rw [copyTruncateX_eq _ (Nat.le_refl _)]
  rw [ht] at key
  rcases key with key | ⟨m', i, w, e, hi, hw, hb, h1, h2⟩
  · exact .inl key
  · refine .inr ⟨m', i, w, e, hi, hw, hb, ?_, h2⟩
    rw [List.take_take, show min i k = i by omega] at h1
    exact h1

/-- **C89** The same of `copy_backward`, from the back: the last `i` elements have been copied. -/
theorem C89_copy_backward_throws (as : Nat → Option α) {m : Mem α} {s d : Nat} {xs : List α} (hs : Seg m s xs) (hd : Live m d xs.length)
    (h : s ≤ d ∨ d + xs.length ≤ s) :
    (∃ m', copyBackwardX as m 0 (s + xs.length) (d + xs.length) xs.length = .done m' d ∧ (∀ i, i < xs.length → as i = none) ∧ Seg m' d xs ∧
      SameOff m m' fun x => d ≤ x ∧ x < d + xs.length) ∨
    ∃ m' i w, copyBackwardX as m 0 (s + xs.length) (d + xs.length) xs.length = .threw m' ∧ i < xs.length ∧ as i = some w ∧ (∀ k, k < i → as k = none) ∧
      Seg m' (d + (xs.length - 1 - i)) (w :: xs.drop (xs.length - i)) ∧ SameOff m m' fun x => d + (xs.length - 1 - i) ≤ x ∧ x < d + xs.length := by
  by_cases hq : ∀ i, i < xs.length → as i = none
  · obtain ⟨m', e, h1, h2⟩ := C89_copy_backward hs hd h
    exact .inl ⟨m', copyBackwardX_quiet (fun i hi => by rw [Nat.zero_add]; exact hq i hi) e, hq, h1, h2⟩
  · right
    obtain ⟨i, ⟨hi, hw⟩, hmin⟩ : ∃ i, (i < xs.length ∧ as i ≠ none) ∧ ∀ k, k < i → ¬ (k < xs.length ∧ as k ≠ none) := by
      classical
      have hex : ∃ i, i < xs.length ∧ as i ≠ none := by
        by_contra hn
        exact hq fun i hi => by by_contra hw; exact hn ⟨i, hi, hw⟩
      exact ⟨Nat.find hex, Nat.find_spec hex, fun k hk => Nat.find_min hex hk⟩
    obtain ⟨w, hw⟩ := Option.ne_none_iff_exists'.1 hw
    have hbefore : ∀ k, k < i → as k = none := fun k hk => by
      by_contra hn
      exact hmin k hk ⟨by omega, hn⟩
    have ht : (xs.drop (xs.length - i)).length = i := by simp; omega
    have hs' : Seg m (s + (xs.length - i)) (xs.drop (xs.length - i)) := fun k hk => by
      rw [List.getElem_drop, show s + (xs.length - i) + k = s + (xs.length - i + k) by omega]
      exact hs _ (by omega)
    obtain ⟨m1, e, h1, h2⟩ := C89_copy_backward hs' (d := d + (xs.length - i)) (fun k hk => by
      rw [show d + (xs.length - i) + k = d + (xs.length - i + k) by omega]; exact hd _ (by omega)) (by omega)
    rw [ht] at e h2
    rw [show s + (xs.length - i) + i = s + xs.length by omega, show d + (xs.length - i) + i = d + xs.length by omega] at e
    have off : ∀ x, (m x).isSome → (m1 x).isSome := by
      intro x hx
      by_cases hr : d + (xs.length - i) ≤ x ∧ x < d + (xs.length - i) + i
      · rw [show x = d + (xs.length - i) + (x - (d + (xs.length - i))) by omega, h1 _ (by omega)]; rfl
      · rw [h2 x hr]; exact hx
    have et := copyBackwardX_threw (as := as) (w := w) (j := 0) hi (by intro k hk; rw [Nat.zero_add]; exact hbefore k hk) (by rw [Nat.zero_add]; exact hw)
      (by omega) (by omega) e (off _ (by rw [show s + xs.length - 1 - i = s + (xs.length - 1 - i) by omega, hs _ (by omega)]; rfl))
      (off _ (by rw [show d + xs.length - 1 - i = d + (xs.length - 1 - i) by omega]; exact hd _ (by omega)))
    rw [show d + xs.length - 1 - i = d + (xs.length - 1 - i) by omega] at et
    refine ⟨_, i, w, et, hi, hw, hbefore, fun k hk => ?_, fun x hx => ?_⟩
    · rw [List.length_cons, ht] at hk
      cases k with
      | zero => rw [Nat.add_zero, upd_same]; rfl
      | succ k =>
        rw [upd_other _ _ (by omega), show d + (xs.length - 1 - i) + (k + 1) = d + (xs.length - i) + k by omega, h1 k (by omega)]
        rfl
    · rw [upd_other _ _ (by rintro rfl; exact hx ⟨by omega, by omega⟩)]
      exact h2 x fun hc => hx ⟨by omega, by omega⟩

/-- The third assignment of a copy by one towards the front throws: two elements have been copied. -/
example : ∃ m, copyX (fun i => if i = 2 then some 'X' else none) letters 0 2 1 5 = .threw m ∧
    (List.range 9).map m = ['?', 'a', 'b', 'X', 'c', 'd', 'e', '?', '?'].map some := ⟨_, rfl, rfl⟩

/-- The third assignment of a copy by one towards the back. -/
example : ∃ m, copyBackwardX (fun i => if i = 2 then some 'X' else none) letters 0 7 8 5 = .threw m ∧
    (List.range 9).map m = ['?', '?', 'a', 'b', 'c', 'X', 'd', 'e', '?'].map some := ⟨_, rfl, rfl⟩

/-- An assignment that would have thrown is not reached when there is room for two only. -/
example : ∃ m, copyTruncateX (fun i => if i = 2 then some 'X' else none) letters 0 2 7 0 2 5 = .done m (4, 2) ∧
    (List.range 9).map m = ['a', 'b', 'a', 'b', 'c', 'd', 'e', '?', '?'].map some := ⟨_, rfl, rfl⟩

end Verif.Algo.Mem
