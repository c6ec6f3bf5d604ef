import Verif.Views.Compare

/-!
# Transforming, filtering, shortening and reversing ranges (C50), `starts_with` and `ends_with` (C53)
-/

namespace Verif.Views

variable {σ τ ρ π : Type}

/-! ## transform -/

/-- `transform` (`algorithms/transform.cpp` 30-53, 117-123): only dereferencing is changed. The function does not throw. -/
def transform (f : ρ → π) (r : RA σ ρ) : RA σ π := { r with deref := fun s => do .ok (f (← r.deref s)) }

/-- `transform` for ranges of any kind. -/
def Range.transform (f : ρ → π) (R : Range σ ρ) : Range σ π where
  ops := { R.ops with deref := fun s => do .ok (f (← R.ops.deref s)) }
  first := R.first
  size? := R.size?

theorem visits_transform {f : ρ → π} {r : Rng σ ρ} : ∀ {xs : List ρ} {s : σ}, Visits r s xs →
    Visits { r with deref := fun s => do .ok (f (← r.deref s)) } s (xs.map f)
  | [], _, h => h
  | _ :: _, _, ⟨h1, h2, s', h3, h4⟩ => ⟨h1, by simp only [h2, Res.ok_bind], s', h3, visits_transform h4⟩

/-- A transformed range has the images of the elements. -/
theorem C50_transform {R : Range σ ρ} {xs : List ρ} (h : R.Is xs) (f : ρ → π) : (R.transform f).Is (xs.map f) :=
  ⟨visits_transform h.1, fun n hn => by rw [List.length_map]; exact h.2 n hn⟩

/-- A transformed random access range is a random access range with the same positions. -/
theorem C50_transform_random_access {r : RA σ ρ} {pos : Nat → σ} {xs : List ρ} (h : Indexed r pos xs) (f : ρ → π) :
    Indexed (transform f r) pos (xs.map f) := by
  constructor
  · constructor
    · intro i hi; rw [List.length_map] at hi ⊢; exact h.atEnd i hi
    · intro i hi; rw [List.length_map] at hi; simp only [transform, h.deref i hi, Res.ok_bind, List.getElem_map]
    · intro i hi; rw [List.length_map] at hi; exact h.next i hi
    · intro i j hi hj; rw [List.length_map] at hi hj; exact h.eq i j hi hj
  · intro i j hi hj; rw [List.length_map] at hi hj; exact h.add i j hi hj
  · intro i j hi hj; rw [List.length_map] at hi hj; exact h.sub i j hi hj
  · intro i j hi hj; rw [List.length_map] at hi hj; exact h.cmp i j hi hj

/-! ## filter -/

/-- `find_if` (`algorithms/find.cpp` 23-30) for any range. Not ending counts as undefined. -/
def findIfR (r : Rng σ ρ) (p : ρ → Bool) : Nat → σ → Res σ
  | 0, _ => .ub
  | f + 1, s => do
    if ← r.atEnd s then .ok s else
    if p (← r.deref s) then .ok s else
    findIfR r p f (← r.next s)

/-- `filter_iterator_traits` (`algorithms/filter.cpp` 32-53): advancing searches for the next match. -/
def filter (N : Nat) (p : ρ → Bool) (r : Fwd σ ρ) : Fwd σ ρ := { r with
  next := fun s => do
    if ← r.atEnd s then .ub else
    findIfR r.toRng p N (← r.next s) }

/-- `filter_traits` (`algorithms/filter.cpp` 55-91): `begin()` is the first match. The range has no size. -/
def Range.filter (N : Nat) (p : ρ → Bool) (R : Range σ ρ) : Res (Range σ ρ) := do
  let first ← findIfR R.ops p N R.first
  .ok { ops := { R.ops with
          next := fun s => do
            if ← R.ops.atEnd s then .ub else
            findIfR R.ops p N (← R.ops.next s) }
        first := first
        size? := none }

theorem findIfR_spec {r : Rng σ ρ} {p : ρ → Bool} : ∀ {xs : List ρ} {s : σ} {f : Nat}, Visits r s xs → xs.length < f →
    ∃ s', findIfR r p f s = .ok s' ∧ Visits r s' (xs.dropWhile fun x => !p x)
  | _, _, 0, _, hf => by omega
  | [], s, f + 1, h, _ => by
    rw [Visits] at h
    exact ⟨s, by simp only [findIfR, h, Res.ok_bind, if_true], h⟩
  | x :: xs, s, f + 1, h, hf => by
    obtain ⟨h1, h2, s', h3, h4⟩ := h
    cases hp : p x with
    | true =>
      refine ⟨s, by simp [findIfR, h1, h2, hp], ?_⟩
      rw [List.dropWhile_cons, hp]
      exact ⟨h1, h2, s', h3, h4⟩
    | false =>
      obtain ⟨s'', e, v⟩ := findIfR_spec (p := p) (f := f) h4 (by simpa using hf)
      refine ⟨s'', by simp [findIfR, h1, h2, hp, h3, e], ?_⟩
      rw [List.dropWhile_cons, hp]
      exact v

theorem dropWhile_filter (p : ρ → Bool) : ∀ xs : List ρ, (xs.dropWhile fun x => !p x).filter p = xs.filter p
  | [] => rfl
  | x :: xs => by
    rw [List.dropWhile_cons]
    cases hp : p x with
    | true => simp
    | false => simp [hp, dropWhile_filter p xs]

/-- An iterator at a match (or at the end) visits the matches. -/
theorem visits_filter {r : Rng σ ρ} {p : ρ → Bool} {N : Nat} : ∀ (n : Nat) {xs : List ρ} {s : σ}, xs.length ≤ n → Visits r s xs → xs.length < N →
    (∀ x ∈ xs.head?, p x = true) →
    Visits { r with next := fun s => do if ← r.atEnd s then .ub else findIfR r p N (← r.next s) } s (xs.filter p)
  | _, [], _, _, h, _, _ => h
  | 0, _ :: _, _, hn, _, _, _ => by simp at hn
  | n + 1, x :: xs, s, hn, ⟨h1, h2, s', h3, h4⟩, hN, hp => by
    have hx : p x = true := hp x (by simp)
    rw [List.filter_cons, if_pos hx]
    rw [List.length_cons] at hN hn
    obtain ⟨s'', e, v⟩ := findIfR_spec (p := p) (f := N) h4 (by omega)
    have hl := (List.dropWhile_sublist (l := xs) fun x => !p x).length_le
    refine ⟨h1, h2, s'', ?_, ?_⟩
    · simp only [h1, h3, e, Res.ok_bind]
      rfl
    · rw [← dropWhile_filter]
      refine visits_filter n (by omega) v (by omega) fun y hy => ?_
      have := List.head?_dropWhile_not (fun x => !p x) xs
      rw [Option.mem_def] at hy
      rw [hy] at this
      simpa using this

/-- A filtered range has the elements that satisfy the condition, in order. -/
theorem C50_filter {R : Range σ ρ} {xs : List ρ} (h : R.Is xs) (p : ρ → Bool) {N : Nat} (hN : xs.length < N) :
    ∃ F, R.filter N p = .ok F ∧ F.Is (xs.filter p) := by
  obtain ⟨s, e, v⟩ := findIfR_spec (p := p) h.1 hN
  have hl := (List.dropWhile_sublist (l := xs) fun x => !p x).length_le
  refine ⟨_, by rw [Range.filter, e, Res.ok_bind], ?_, fun n hn => by cases hn⟩
  rw [← dropWhile_filter]
  refine visits_filter _ (Nat.le_refl _) v (by omega) fun y hy => ?_
  have := List.head?_dropWhile_not (fun x => !p x) xs
  rw [Option.mem_def] at hy
  rw [hy] at this
  simpa using this

/-- The position of the `k`-th match. -/
def matchIdx (p : ρ → Bool) : List ρ → Nat → Nat
  | [], _ => 0
  | x :: xs, 0 => if p x then 0 else matchIdx p xs 0 + 1
  | x :: xs, k + 1 => if p x then matchIdx p xs k + 1 else matchIdx p xs (k + 1) + 1

theorem matchIdx_lt {p : ρ → Bool} : ∀ {xs : List ρ} {k : Nat} (hk : k < (xs.filter p).length),
    ∃ h : matchIdx p xs k < xs.length, xs[matchIdx p xs k] = (xs.filter p)[k]
  | [], k, hk => by simp at hk
  | x :: xs, 0, hk => by
    by_cases hp : p x
    · refine ⟨by simp [matchIdx, hp], by simp [matchIdx, hp]⟩
    · simp only [List.filter_cons, hp, Bool.false_eq_true, if_false] at hk ⊢
      obtain ⟨h, e⟩ := matchIdx_lt hk
      exact ⟨by simpa [matchIdx, hp] using h, by simpa [matchIdx, hp] using e⟩
  | x :: xs, k + 1, hk => by
    by_cases hp : p x
    · simp only [List.filter_cons, hp, if_true, List.length_cons, Nat.add_lt_add_iff_right] at hk ⊢
      obtain ⟨h, e⟩ := matchIdx_lt hk
      exact ⟨by simpa [matchIdx, hp] using h, by simpa [matchIdx, hp] using e⟩
    · simp only [List.filter_cons, hp, Bool.false_eq_true, if_false] at hk ⊢
      obtain ⟨h, e⟩ := matchIdx_lt hk
      exact ⟨by simpa [matchIdx, hp] using h, by simpa [matchIdx, hp] using e⟩

theorem matchIdx_end {p : ρ → Bool} : ∀ {xs : List ρ} {k : Nat}, (xs.filter p).length ≤ k → matchIdx p xs k = xs.length
  | [], k, _ => rfl
  | x :: xs, 0, hk => by
    by_cases hp : p x
    · simp [hp] at hk
    · simp only [List.filter_cons, hp, Bool.false_eq_true, if_false] at hk
      simp [matchIdx, hp, matchIdx_end hk]
  | x :: xs, k + 1, hk => by
    by_cases hp : p x
    · simp only [List.filter_cons, hp, if_true, List.length_cons, Nat.add_le_add_iff_right] at hk
      simp [matchIdx, hp, matchIdx_end hk]
    · simp only [List.filter_cons, hp, Bool.false_eq_true, if_false] at hk
      simp [matchIdx, hp, matchIdx_end hk]

theorem matchIdx_succ {p : ρ → Bool} : ∀ {xs : List ρ} {k : Nat}, k < (xs.filter p).length →
    matchIdx p xs (k + 1) = matchIdx p xs k + 1 + matchIdx p (xs.drop (matchIdx p xs k + 1)) 0
  | [], k, hk => by simp at hk
  | x :: xs, 0, hk => by
    by_cases hp : p x
    · simp [matchIdx, hp]; omega
    · simp only [List.filter_cons, hp, Bool.false_eq_true, if_false] at hk
      have := matchIdx_succ hk
      simp [matchIdx, hp, this]; omega
  | x :: xs, k + 1, hk => by
    by_cases hp : p x
    · simp only [List.filter_cons, hp, if_true, List.length_cons, Nat.add_lt_add_iff_right] at hk
      have := matchIdx_succ hk
      simp [matchIdx, hp, this]; omega
    · simp only [List.filter_cons, hp, Bool.false_eq_true, if_false] at hk
      have := matchIdx_succ hk
      simp [matchIdx, hp, this]; omega

theorem matchIdx_mono {p : ρ → Bool} {xs : List ρ} {k : Nat} : ∀ {l : Nat}, k < l → l ≤ (xs.filter p).length → matchIdx p xs k < matchIdx p xs l
  | 0, h, _ => by omega
  | l + 1, h, hl => by
    have e := matchIdx_succ (p := p) (xs := xs) (k := l) (by omega)
    rcases Nat.lt_or_ge k l with hk | hk
    · have := matchIdx_mono (p := p) (xs := xs) hk (by omega)
      omega
    · have : k = l := by omega
      subst this
      omega

theorem Positions.findIfR {r : Fwd σ ρ} {pos : Nat → σ} {xs : List ρ} (h : Positions r pos xs) {p : ρ → Bool} : ∀ (n i N : Nat), i + n = xs.length →
    n < N → findIfR r.toRng p N (pos i) = .ok (pos (i + matchIdx p (xs.drop i) 0))
  | _, _, 0, _, hN => by omega
  | 0, i, N + 1, hi, _ => by
    rw [Views.findIfR, h.atEnd i (by omega), Res.ok_bind, if_pos (by simp; omega), List.drop_of_length_le (by omega)]
    rfl
  | n + 1, i, N + 1, hi, hN => by
    have e := List.drop_eq_getElem_cons (l := xs) (i := i) (by omega)
    rw [Views.findIfR, h.atEnd i (by omega), Res.ok_bind, if_neg (by simp; omega), h.deref i (by omega), Res.ok_bind, e,
      matchIdx]
    by_cases hp : p xs[i]
    · rw [if_pos hp, if_pos hp]; rfl
    · rw [if_neg hp, if_neg hp, h.next i (by omega), Res.ok_bind, h.findIfR n (i + 1) N (by omega) (by omega)]
      congr 2; omega

/-- The iterators of a filtered forward range compare equal exactly at the same position of the filtered range. -/
theorem C50_filter_positions {r : Fwd σ ρ} {pos : Nat → σ} {xs : List ρ} (h : Positions r pos xs) (p : ρ → Bool) {N : Nat} (hN : xs.length < N) :
    ∃ pos', findIfR r.toRng p N (pos 0) = .ok (pos' 0) ∧ Positions (filter N p r) pos' (xs.filter p) := by
  have le : ∀ k, k ≤ (xs.filter p).length → matchIdx p xs k ≤ xs.length ∧ (matchIdx p xs k = xs.length ↔ k = (xs.filter p).length) := by
    intro k hk
    rcases Nat.lt_or_ge k (xs.filter p).length with hk' | hk'
    · obtain ⟨hl, -⟩ := matchIdx_lt hk'
      omega
    · have := matchIdx_end hk'
      omega
  refine ⟨fun k => pos (matchIdx p xs k), ?_, ?_⟩
  · have := h.findIfR (p := p) xs.length 0 N (by omega) hN
    simpa using this
  · constructor
    · intro k hk
      obtain ⟨h1, h2⟩ := le k hk
      simp only [filter, h.atEnd _ h1, h2]
    · intro k hk
      obtain ⟨h1, h2⟩ := matchIdx_lt hk
      simp only [filter, h.deref _ h1, h2]
    · intro k hk
      obtain ⟨h1, -⟩ := matchIdx_lt hk
      simp only [filter, h.atEnd _ (Nat.le_of_lt h1), Res.ok_bind]
      rw [if_neg (by simp; omega), h.next _ h1, Res.ok_bind, h.findIfR (p := p) (xs.length - (matchIdx p xs k + 1)) _ N (by omega) (by omega),
        matchIdx_succ hk]
    · intro k l hk hl
      have e := h.eq (matchIdx p xs k) (matchIdx p xs l) (le k hk).1 (le l hl).1
      simp only [filter, e, Res.ok.injEq, decide_eq_decide]
      constructor
      · intro e'
        rcases Nat.lt_trichotomy k l with hkl | hkl | hkl
        · have := matchIdx_mono hkl hl; omega
        · exact hkl
        · have := matchIdx_mono hkl hk; omega
      · rintro rfl; rfl

/-! ## take -/

/-- `counted_iterator` (`take.cpp` 60-145), compared with `counted_sentinel` that drops extra elements. -/
def counted (r : Rng σ ρ) : Rng (σ × Nat) ρ where
  atEnd s := if s.2 = 0 then .ok true else r.atEnd s.1
  deref s := r.deref s.1
  next s := do
    let it ← r.next s.1
    if s.2 = 0 then .ub else .ok (it, s.2 - 1)

/-- `counted_iterator` (`take.cpp` 60-145), compared with `counted_sentinel` that throws on extra elements. -/
def countedThrow (r : Rng σ ρ) : Rng (σ × Nat) ρ where
  atEnd s := do
    if ← r.atEnd s.1 then .ok true else
    if s.2 = 0 then .exn else .ok false
  deref s := r.deref s.1
  next s := do
    let it ← r.next s.1
    if s.2 = 0 then .ub else .ok (it, s.2 - 1)

/-- `take` (`take.cpp` 187-223) of a range that has no size or no random access. `D` is the largest value of the difference type. -/
def Range.take (D : Nat) (R : Range σ ρ) (count : Nat) : Range (σ × Nat) ρ :=
  ⟨counted R.ops, (R.first, min count D), none⟩

/-- `take` (`take.cpp` 187-223) of a random access range: `subrange(first, min(size, count))`, the end is computed from the size. -/
def takeRA (r : RA σ ρ) (first : σ) (size count : Nat) : Res (RA σ ρ) := do
  let last ← r.add first (min size count : Nat)
  .ok { r with atEnd := fun s => r.eq s last }

/-- `check_size_not_greater_than` (`take.cpp` 187-228) of a range without size. -/
def Range.checkSizeCounted (D : Nat) (R : Range σ ρ) (count : Nat) : Range (σ × Nat) ρ :=
  ⟨countedThrow R.ops, (R.first, min count D), none⟩

/-- `check_size_not_greater_than` (`take.cpp` 187-228) of a range with a size. -/
def Range.checkSize (R : Range σ ρ) (size count : Nat) : Res (Range σ ρ) := if size > count then .exn else .ok R

theorem visits_counted {r : Rng σ ρ} : ∀ {xs : List ρ} {s : σ} (c : Nat), Visits r s xs → Visits (counted r) (s, c) (xs.take c)
  | xs, s, 0, _ => by rw [List.take_zero]; rfl
  | [], s, c + 1, h => h
  | x :: xs, s, c + 1, ⟨h1, h2, s', h3, h4⟩ =>
    ⟨by simp only [counted, h1]; rfl, h2, (s', c), by simp only [counted, h3, Res.ok_bind]; rfl, visits_counted c h4⟩

/-- `take` gives the first elements, as many as asked for or all of them. The largest difference is at least the number of elements. -/
theorem C50_take {R : Range σ ρ} {xs : List ρ} (h : R.Is xs) {D : Nat} (hD : xs.length ≤ D) (count : Nat) : (R.take D count).Is (xs.take count) := by
  refine ⟨?_, fun n hn => by cases hn⟩
  have := visits_counted (min count D) h.1
  have e : xs.take (min count D) = xs.take count := by
    rcases Nat.le_total count D with hc | hc
    · rw [Nat.min_eq_left hc]
    · rw [Nat.min_eq_right hc, List.take_of_length_le hD, List.take_of_length_le (by omega)]
  rwa [e] at this

theorem Indexed.shorten {r : RA σ ρ} {pos : Nat → σ} {xs : List ρ} (h : Indexed r pos xs) {n : Nat} (hn : n ≤ xs.length) :
    Indexed { r with atEnd := fun s => r.eq s (pos n) } pos (xs.take n) := by
  have hl : (xs.take n).length = n := by rw [List.length_take]; omega
  constructor
  · constructor
    · intro i hi; rw [hl] at hi ⊢; exact h.eq i n (by omega) hn
    · intro i hi; rw [hl] at hi; rw [List.getElem_take]; exact h.deref i (by omega)
    · intro i hi; rw [hl] at hi; exact h.next i (by omega)
    · intro i j hi hj; rw [hl] at hi hj; exact h.eq i j (by omega) (by omega)
  · intro i j hi hj; rw [hl] at hi hj; exact h.add i j (by omega) (by omega)
  · intro i j hi hj; rw [hl] at hi hj; exact h.sub i j (by omega) (by omega)
  · intro i j hi hj; rw [hl] at hi hj; exact h.cmp i j (by omega) (by omega)

/-- The same for random access ranges; the result is a random access range. -/
theorem C50_take_random_access {r : RA σ ρ} {pos : Nat → σ} {xs : List ρ} (h : Indexed r pos xs) (count : Nat) :
    ∃ r', takeRA r (pos 0) xs.length count = .ok r' ∧ Indexed r' pos (xs.take count) := by
  have e := h.add 0 (min xs.length count) (by omega) (by omega)
  rw [Int.ofNat_zero, Int.sub_zero] at e
  refine ⟨_, by rw [takeRA, e, Res.ok_bind], ?_⟩
  have := h.shorten (n := min xs.length count) (by omega)
  have e' : xs.take (min xs.length count) = xs.take count := by
    rcases Nat.le_total count xs.length with hc | hc
    · rw [Nat.min_eq_right hc]
    · rw [Nat.min_eq_left hc, List.take_of_length_le (Nat.le_refl _), List.take_of_length_le hc]
  rwa [e'] at this

theorem visits_countedThrow {r : Rng σ ρ} : ∀ {xs : List ρ} {s : σ} {c : Nat}, Visits r s xs → xs.length ≤ c → Visits (countedThrow r) (s, c) xs
  | [], s, c, h, _ => by
    rw [Visits] at h
    simp only [Visits, countedThrow, h, Res.ok_bind, if_true]
  | x :: xs, s, 0, _, hc => by simp at hc
  | x :: xs, s, c + 1, ⟨h1, h2, s', h3, h4⟩, hc =>
    ⟨by simp [countedThrow, h1], h2, (s', c), by simp [countedThrow, h3], visits_countedThrow h4 (by simpa using hc)⟩

theorem throws_countedThrow {r : Rng σ ρ} : ∀ {xs : List ρ} {s : σ} {c : Nat}, Visits r s xs → c < xs.length → Throws (countedThrow r) (s, c) (xs.take c)
  | [], s, c, h, hc => by simp at hc
  | x :: xs, s, 0, ⟨h1, h2, s', h3, h4⟩, hc => by simp [Throws, countedThrow, h1]
  | x :: xs, s, c + 1, ⟨h1, h2, s', h3, h4⟩, hc =>
    ⟨by simp [countedThrow, h1], h2, (s', c), by simp [countedThrow, h3], throws_countedThrow h4 (by simpa using hc)⟩

/-- `check_size_not_greater_than` gives all elements if there are not more than allowed. If there are more it throws: after the
allowed ones if the range has no size, immediately if it has one. -/
theorem C50_check_size_not_greater_than {R : Range σ ρ} {xs : List ρ} (h : R.Is xs) {D : Nat} (hD : xs.length ≤ D) (count : Nat) :
    (xs.length ≤ count → (R.checkSizeCounted D count).Is xs) ∧
    (count < xs.length → Throws (R.checkSizeCounted D count).ops (R.checkSizeCounted D count).first (xs.take count)) ∧
    (∀ n, R.size? = some n → (xs.length ≤ count → R.checkSize n count = .ok R) ∧ (count < xs.length → R.checkSize n count = .exn)) := by
  refine ⟨fun hc => ⟨visits_countedThrow h.1 (by omega), fun n hn => by cases hn⟩, fun hc => ?_, fun n hn => ?_⟩
  · rw [show xs.take count = xs.take (min count D) by rw [Nat.min_eq_left (by omega)]]
    exact throws_countedThrow h.1 (by omega)
  · have := h.2 n hn
    subst this
    exact ⟨fun hc => by rw [Range.checkSize, if_neg (by omega)], fun hc => by rw [Range.checkSize, if_pos (by omega)]⟩

/-! ## drop -/

/-- `next(it, n)` (`algorithms/advance.cpp` 31-70) for iterators that can only be incremented. -/
def advance (r : Rng σ ρ) : Nat → σ → Res σ
  | 0, s => .ok s
  | n + 1, s => do advance r n (← r.next s)

/-- The loop of `drop_impl` (`algorithms/drop.cpp` 192-202) for ranges without size. -/
def dropLoop (throws : Bool) (r : Rng σ ρ) : Nat → σ → Res σ
  | 0, s => .ok s
  | n + 1, s => do
    if ← r.atEnd s then (if throws then .exn else .ok s) else
    dropLoop throws r n (← r.next s)

/-- `drop` (`throws` is `false`) and `drop_exactly` (`throws` is `true`) (`algorithms/drop.cpp` 160-223). -/
def Range.drop (throws : Bool) (R : Range σ ρ) (count : Nat) : Res (Range σ ρ) :=
  match R.size? with
  | some n =>
    if throws ∧ n < count then .exn else do
    let first ← advance R.ops (min n count) R.first
    .ok ⟨R.ops, first, some (n - count)⟩
  | none => do
    let first ← dropLoop throws R.ops count R.first
    .ok ⟨R.ops, first, none⟩

/-- The same for random access ranges; the end is computed from the remaining size. -/
def dropRA (throws : Bool) (r : RA σ ρ) (first : σ) (size count : Nat) : Res (RA σ ρ × σ) :=
  if throws ∧ size < count then .exn else do
  let first' ← r.add first (min size count : Nat)
  let last ← r.add first' (size - count : Nat)
  .ok ({ r with atEnd := fun s => r.eq s last }, first')

theorem visits_advance {r : Rng σ ρ} : ∀ (n : Nat) {xs : List ρ} {s : σ}, Visits r s xs → n ≤ xs.length →
    ∃ s', advance r n s = .ok s' ∧ Visits r s' (xs.drop n)
  | 0, xs, s, h, _ => ⟨s, rfl, h⟩
  | n + 1, [], s, _, hn => by simp at hn
  | n + 1, x :: xs, s, ⟨h1, h2, s', h3, h4⟩, hn => by
    obtain ⟨s'', e, v⟩ := visits_advance n h4 (by simpa using hn)
    exact ⟨s'', by rw [advance, h3, Res.ok_bind, e], v⟩

theorem dropLoop_spec {r : Rng σ ρ} {throws : Bool} : ∀ (n : Nat) {xs : List ρ} {s : σ}, Visits r s xs →
    if throws ∧ xs.length < n then dropLoop throws r n s = .exn else ∃ s', dropLoop throws r n s = .ok s' ∧ Visits r s' (xs.drop n)
  | 0, xs, s, h => by
    rw [if_neg (by simp)]
    exact ⟨s, rfl, h⟩
  | n + 1, [], s, h => by
    have h' := h
    rw [Visits] at h'
    cases throws
    · rw [if_neg (by simp)]
      exact ⟨s, by simp [dropLoop, h'], by simpa using h⟩
    · rw [if_pos (by simp)]
      simp [dropLoop, h']
  | n + 1, x :: xs, s, ⟨h1, h2, s', h3, h4⟩ => by
    have ih := dropLoop_spec (throws := throws) n h4
    rw [List.length_cons]
    simp only [Nat.add_lt_add_iff_right]
    split at ih
    · rename_i hc
      rw [if_pos hc]
      simp [dropLoop, h1, h3, ih]
    · rename_i hc
      rw [if_neg hc]
      obtain ⟨s'', e, v⟩ := ih
      exact ⟨s'', by simp [dropLoop, h1, h3, e], v⟩

/-- `drop` leaves the elements after the first ones. -/
theorem C50_drop {R : Range σ ρ} {xs : List ρ} (h : R.Is xs) (count : Nat) : ∃ R', R.drop false count = .ok R' ∧ R'.Is (xs.drop count) := by
  rw [Range.drop]
  split
  · rename_i n hn
    have := h.2 n hn
    subst this
    obtain ⟨s', e, v⟩ := visits_advance (min xs.length count) h.1 (by omega)
    refine ⟨_, by simp [e]; rfl, ?_, fun n hn => ?_⟩
    · dsimp only
      have e' : xs.drop (min xs.length count) = xs.drop count := by
        rcases Nat.le_total count xs.length with hc | hc
        · rw [Nat.min_eq_right hc]
        · rw [Nat.min_eq_left hc, List.drop_of_length_le (Nat.le_refl _), List.drop_of_length_le hc]
      rwa [e'] at v
    · simp only [Option.some.injEq] at hn
      rw [List.length_drop]; omega
  · have := dropLoop_spec (throws := false) count h.1
    rw [if_neg (by simp)] at this
    obtain ⟨s', e, v⟩ := this
    exact ⟨_, by rw [e, Res.ok_bind], v, fun n hn => by cases hn⟩

/-- `drop_exactly` leaves the elements after the first ones and throws if there are not that many. -/
theorem C50_drop_exactly {R : Range σ ρ} {xs : List ρ} (h : R.Is xs) (count : Nat) :
    (count ≤ xs.length → ∃ R', R.drop true count = .ok R' ∧ R'.Is (xs.drop count)) ∧ (xs.length < count → R.drop true count = .exn) := by
  rw [Range.drop]
  split
  · rename_i n hn
    have := h.2 n hn
    subst this
    refine ⟨fun hc => ?_, fun hc => by rw [if_pos (by simpa using hc)]⟩
    obtain ⟨s', e, v⟩ := visits_advance (min xs.length count) h.1 (by omega)
    rw [Nat.min_eq_right hc] at v
    refine ⟨_, by rw [if_neg (by simp; omega), e, Res.ok_bind], v, fun n hn => ?_⟩
    simp only [Option.some.injEq] at hn
    rw [List.length_drop]; omega
  · have := dropLoop_spec (throws := true) count h.1
    refine ⟨fun hc => ?_, fun hc => ?_⟩
    · rw [if_neg (by simp; omega)] at this
      obtain ⟨s', e, v⟩ := this
      exact ⟨_, by rw [e, Res.ok_bind], v, fun n hn => by cases hn⟩
    · rw [if_pos (by simpa using hc)] at this
      rw [this]; rfl

theorem Indexed.part {r : RA σ ρ} {pos : Nat → σ} {xs : List ρ} (h : Indexed r pos xs) {a b : Nat} (hab : a ≤ b) (hb : b ≤ xs.length) :
    Indexed { r with atEnd := fun s => r.eq s (pos b) } (fun k => pos (a + k)) ((xs.drop a).take (b - a)) := by
  have hl : ((xs.drop a).take (b - a)).length = b - a := by rw [List.length_take, List.length_drop]; omega
  refine ⟨h.toPositions.subrange hab hb, ?_, ?_, ?_⟩
  · intro i j hi hj; rw [hl] at hi hj
    have := h.add (a + i) (a + j) (by omega) (by omega)
    rw [← this]
    dsimp only
    congr 1; omega
  · intro i j hi hj; rw [hl] at hi hj
    have := h.sub (a + i) (a + j) (by omega) (by omega)
    rw [this, Res.ok.injEq]; omega
  · intro i j hi hj; rw [hl] at hi hj
    have := h.cmp (a + i) (a + j) (by omega) (by omega)
    rw [this, compare_add_left]

/-- `drop` and `drop_exactly` of a random access range give a random access range. -/
theorem C50_drop_random_access {r : RA σ ρ} {pos : Nat → σ} {xs : List ρ} (h : Indexed r pos xs) (throws : Bool) (count : Nat)
    (ht : throws = true → count ≤ xs.length) :
    ∃ r' pos', dropRA throws r (pos 0) xs.length count = .ok (r', pos' 0) ∧ Indexed r' pos' (xs.drop count) := by
  have e1 := h.add 0 (min xs.length count) (by omega) (by omega)
  have e2 := h.add (min xs.length count) xs.length (by omega) (by omega)
  rw [Int.ofNat_zero, Int.sub_zero] at e1
  rw [show (xs.length : Int) - (min xs.length count : Nat) = ((xs.length - count : Nat) : Int) by omega] at e2
  have hp := h.part (a := min xs.length count) (b := xs.length) (by omega) (Nat.le_refl _)
  refine ⟨{ r with atEnd := fun s => r.eq s (pos xs.length) }, fun k => pos (min xs.length count + k), ?_, ?_⟩
  · rw [dropRA, if_neg (by rintro ⟨ht', hc⟩; have := ht ht'; omega), e1, Res.ok_bind, e2, Res.ok_bind]
    rfl
  · have : (xs.drop (min xs.length count)).take (xs.length - min xs.length count) = xs.drop count := by
      rw [List.take_of_length_le (by rw [List.length_drop])]
      rcases Nat.le_total count xs.length with hc | hc
      · rw [Nat.min_eq_right hc]
      · rw [Nat.min_eq_left hc, List.drop_of_length_le (Nat.le_refl _), List.drop_of_length_le hc]
    rw [this] at hp
    exact hp

/-! ## drop_back_exactly -/

/-- `drop_back_exactly` (`algorithms/drop_back.cpp` 31-43) of a range that is not random access. -/
def Range.dropBackExactly (D : Nat) (R : Range σ ρ) (size count : Nat) : Res (Range (σ × Nat) ρ) :=
  if size < count then .exn else .ok (R.take D (size - count))

/-- The same of a random access range. -/
def dropBackExactlyRA (r : RA σ ρ) (first : σ) (size count : Nat) : Res (RA σ ρ) :=
  if size < count then .exn else takeRA r first size (size - count)

/-- `drop_back_exactly` removes that many elements at the end and throws if there are not that many. -/
theorem C50_drop_back_exactly {R : Range σ ρ} {xs : List ρ} (h : R.Is xs) {n : Nat} (hn : R.size? = some n) {D : Nat} (hD : xs.length ≤ D) (count : Nat) :
    (∀ ys zs, xs = ys ++ zs → zs.length = count → ∃ R', R.dropBackExactly D n count = .ok R' ∧ R'.Is ys) ∧
    (xs.length < count → R.dropBackExactly D n count = .exn) := by
  have := h.2 n hn
  subst this
  refine ⟨fun ys zs e hz => ?_, fun hc => by rw [Range.dropBackExactly, if_pos hc]⟩
  have hl : xs.length = ys.length + zs.length := by rw [e, List.length_append]
  refine ⟨_, by rw [Range.dropBackExactly, if_neg (by omega)], ?_⟩
  have := C50_take h hD (xs.length - count)
  have e' : xs.take (xs.length - count) = ys := by rw [show xs.length - count = ys.length by omega, e, List.take_left]
  rwa [e'] at this

/-- The same for random access ranges. -/
theorem C50_drop_back_exactly_random_access {r : RA σ ρ} {pos : Nat → σ} {xs : List ρ} (h : Indexed r pos xs) (count : Nat) :
    (∀ ys zs, xs = ys ++ zs → zs.length = count → ∃ r', dropBackExactlyRA r (pos 0) xs.length count = .ok r' ∧ Indexed r' pos ys) ∧
    (xs.length < count → dropBackExactlyRA r (pos 0) xs.length count = .exn) := by
  refine ⟨fun ys zs e hz => ?_, fun hc => by rw [dropBackExactlyRA, if_pos hc]⟩
  have hl : xs.length = ys.length + zs.length := by rw [e, List.length_append]
  obtain ⟨r', e1, v⟩ := C50_take_random_access h (xs.length - count)
  refine ⟨r', by rw [dropBackExactlyRA, if_neg (by omega), e1], ?_⟩
  have e' : xs.take (xs.length - count) = ys := by rw [show xs.length - count = ys.length by omega, e, List.take_left]
  rwa [e'] at v

/-! ## reversed -/

/-- `reversed` (`algorithms/reverse_iterator.cpp` 33-112): from the end to `first`. `--it` is `it + (-1)`. Bidirectional ranges use only
`atEnd`, `deref`, `next` and `eq`. -/
def reversed (r : RA σ ρ) (first : σ) : RA σ ρ where
  atEnd s := r.eq first s
  deref s := do r.deref (← r.add s (-1))
  next s := r.add s (-1)
  add s d := r.add s (-d)
  sub a b := r.sub b a
  cmp a b := r.cmp b a
  eq a b := r.eq b a

/-- The reversed range has the elements from last to first, with random access. -/
theorem C50_reversed {r : RA σ ρ} {pos : Nat → σ} {xs : List ρ} (h : Indexed r pos xs) :
    Indexed (reversed r (pos 0)) (fun i => pos (xs.length - i)) xs.reverse := by
  have step : ∀ i, i < xs.length → r.add (pos (xs.length - i)) (-1) = .ok (pos (xs.length - i - 1)) := by
    intro i hi
    have := h.add (xs.length - i) (xs.length - i - 1) (by omega) (by omega)
    rwa [show ((xs.length - i - 1 : Nat) : Int) - ((xs.length - i : Nat) : Int) = -1 by omega] at this
  constructor
  · constructor
    · intro i hi; rw [List.length_reverse] at hi ⊢
      rw [reversed]
      dsimp only
      rw [h.eq 0 (xs.length - i) (by omega) (by omega), Res.ok.injEq, decide_eq_decide]; omega
    · intro i hi; rw [List.length_reverse] at hi
      rw [reversed]
      dsimp only
      rw [step i hi, Res.ok_bind, h.deref _ (by omega), Res.ok.injEq, List.getElem_reverse]
      congr 1; omega
    · intro i hi; rw [List.length_reverse] at hi
      rw [reversed]
      dsimp only
      rw [step i hi, Nat.sub_sub]
    · intro i j hi hj; rw [List.length_reverse] at hi hj
      rw [reversed]
      dsimp only
      rw [h.eq _ _ (by omega) (by omega), Res.ok.injEq, decide_eq_decide]; omega
  · intro i j hi hj; rw [List.length_reverse] at hi hj
    rw [reversed]
    dsimp only
    have := h.add (xs.length - i) (xs.length - j) (by omega) (by omega)
    rw [← this]
    congr 1; omega
  · intro i j hi hj; rw [List.length_reverse] at hi hj
    rw [reversed]
    dsimp only
    rw [h.sub _ _ (by omega) (by omega), Res.ok.injEq]; omega
  · intro i j hi hj; rw [List.length_reverse] at hi hj
    rw [reversed]
    dsimp only
    rw [h.cmp _ _ (by omega) (by omega), Res.ok.injEq, Nat.compare_eq_ite_lt, Nat.compare_eq_ite_lt]
    split_ifs <;> first | omega | rfl

/-! ## starts_with and ends_with -/

/-- `starts_with` (`algorithms/starts_with.cpp` 21-26) for a range that has no size or no random access. -/
def startsWith (D : Nat) (full : Range σ ρ) (prefix_ : Range τ π) (eq : ρ → π → Bool) (f : Nat) : Option (Res Bool) :=
  match prefix_.size? with
  | some n => equal (full.take D n) prefix_ eq f
  | none => some .ub

/-- `starts_with` (`algorithms/starts_with.cpp` 21-26) for a random access range. -/
def startsWithRA (r : RA σ ρ) (first : σ) (size : Nat) (prefix_ : Range τ π) (eq : ρ → π → Bool) (f : Nat) : Option (Res Bool) :=
  match prefix_.size? with
  | some n =>
    match takeRA r first size n with
    | .ok r' => equal ⟨r'.toRng, first, some (min size n)⟩ prefix_ eq f
    | .ub => some .ub
    | .exn => some .exn
  | none => some .ub

/-- `ends_with` (`algorithms/ends_with.cpp` 24-40) for a range without random access. -/
def endsWith (full : Range σ ρ) (suffix : Range τ π) (eq : ρ → π → Bool) (f : Nat) : Option (Res Bool) :=
  match full.size?, suffix.size? with
  | some n, some m =>
    if m > n then some (.ok false) else
    match full.drop true (n - m) with
    | .ok R => equal R suffix eq f
    | .ub => some .ub
    | .exn => some .exn
  | _, _ => some .ub

/-- `ends_with` (`algorithms/ends_with.cpp` 24-40) for a random access range. -/
def endsWithRA (r : RA σ ρ) (first : σ) (size : Nat) (suffix : Range τ π) (eq : ρ → π → Bool) (f : Nat) : Option (Res Bool) :=
  match suffix.size? with
  | some m =>
    if m > size then some (.ok false) else
    match dropRA true r first size (size - m) with
    | .ok (r', first') => equal ⟨r'.toRng, first', some (size - (size - m))⟩ suffix eq f
    | .ub => some .ub
    | .exn => some .exn
  | none => some .ub

/-- The elements have this one as a prefix. -/
def HasPrefix (eq : ρ → π → Bool) (xs : List ρ) (ys : List π) : Prop := ∃ as bs, xs = as ++ bs ∧ SameElements eq as ys

/-- The elements have this one as a suffix. -/
def HasSuffix (eq : ρ → π → Bool) (xs : List ρ) (ys : List π) : Prop := ∃ as bs, xs = as ++ bs ∧ SameElements eq bs ys

theorem hasPrefix_iff {eq : ρ → π → Bool} {xs : List ρ} {ys : List π} : HasPrefix eq xs ys ↔ SameElements eq (xs.take ys.length) ys := by
  constructor
  · rintro ⟨as, bs, rfl, h⟩
    rwa [← h.1, List.take_left]
  · intro h
    exact ⟨_, _, (List.take_append_drop ys.length xs).symm, h⟩

theorem hasSuffix_iff {eq : ρ → π → Bool} {xs : List ρ} {ys : List π} (hl : ys.length ≤ xs.length) :
    HasSuffix eq xs ys ↔ SameElements eq (xs.drop (xs.length - ys.length)) ys := by
  constructor
  · rintro ⟨as, bs, rfl, h⟩
    have : (as ++ bs).length - ys.length = as.length := by rw [List.length_append, h.1]; omega
    rwa [this, List.drop_left]
  · intro h
    exact ⟨_, _, (List.take_append_drop (xs.length - ys.length) xs).symm, h⟩

/-- `starts_with` decides whether the range starts with the other one. -/
theorem C53_starts_with {R : Range σ ρ} {Q : Range τ π} {xs : List ρ} {ys : List π} (hR : R.Is xs) (hQ : Q.Is ys) (sQ : Q.size?.isSome)
    (eq : ρ → π → Bool) {D : Nat} (hD : xs.length ≤ D) {f : Nat} (hf : xs.length < f) :
    ∃ c, startsWith D R Q eq f = some (.ok c) ∧ (c = true ↔ HasPrefix eq xs ys) := by
  obtain ⟨n, hn⟩ := Option.isSome_iff_exists.1 sQ
  have := hQ.2 n hn
  subst this
  rw [startsWith, hn]
  dsimp only
  rw [hasPrefix_iff]
  exact C47_equal (C50_take hR hD ys.length) hQ eq (by rw [List.length_take]; omega)

theorem C53_starts_with_random_access {r : RA σ ρ} {pos : Nat → σ} {Q : Range τ π} {xs : List ρ} {ys : List π} (hR : Indexed r pos xs) (hQ : Q.Is ys)
    (sQ : Q.size?.isSome) (eq : ρ → π → Bool) {f : Nat} (hf : xs.length < f) :
    ∃ c, startsWithRA r (pos 0) xs.length Q eq f = some (.ok c) ∧ (c = true ↔ HasPrefix eq xs ys) := by
  obtain ⟨n, hn⟩ := Option.isSome_iff_exists.1 sQ
  have := hQ.2 n hn
  subst this
  obtain ⟨r', e, v⟩ := C50_take_random_access hR ys.length
  rw [startsWithRA, hn]
  dsimp only
  rw [e]
  dsimp only
  rw [hasPrefix_iff]
  refine C47_equal ⟨v.visits, fun n hn => ?_⟩ hQ eq (by rw [List.length_take]; omega)
  simp only [Option.some.injEq] at hn
  rw [List.length_take]; omega

/-- `ends_with` decides whether the range ends with the other one. -/
theorem C53_ends_with {R : Range σ ρ} {Q : Range τ π} {xs : List ρ} {ys : List π} (hR : R.Is xs) (hQ : Q.Is ys) (sR : R.size?.isSome)
    (sQ : Q.size?.isSome) (eq : ρ → π → Bool) {f : Nat} (hf : xs.length < f) :
    ∃ c, endsWith R Q eq f = some (.ok c) ∧ (c = true ↔ HasSuffix eq xs ys) := by
  obtain ⟨n, hn⟩ := Option.isSome_iff_exists.1 sR
  obtain ⟨m, hm⟩ := Option.isSome_iff_exists.1 sQ
  have := hR.2 n hn
  subst this
  have := hQ.2 m hm
  subst this
  rw [endsWith, hn, hm]
  dsimp only
  by_cases hl : ys.length > xs.length
  · rw [if_pos hl]
    refine ⟨false, rfl, by simp, ?_⟩
    rintro ⟨as, bs, rfl, h⟩
    rw [List.length_append, h.1] at hl
    omega
  · rw [if_neg hl]
    obtain ⟨R', e, v⟩ := (C50_drop_exactly hR (xs.length - ys.length)).1 (by omega)
    rw [e]
    dsimp only
    rw [hasSuffix_iff (by omega)]
    exact C47_equal v hQ eq (by rw [List.length_drop]; omega)

theorem C53_ends_with_random_access {r : RA σ ρ} {pos : Nat → σ} {Q : Range τ π} {xs : List ρ} {ys : List π} (hR : Indexed r pos xs) (hQ : Q.Is ys)
    (sQ : Q.size?.isSome) (eq : ρ → π → Bool) {f : Nat} (hf : xs.length < f) :
    ∃ c, endsWithRA r (pos 0) xs.length Q eq f = some (.ok c) ∧ (c = true ↔ HasSuffix eq xs ys) := by
  obtain ⟨m, hm⟩ := Option.isSome_iff_exists.1 sQ
  have := hQ.2 m hm
  subst this
  rw [endsWithRA, hm]
  dsimp only
  by_cases hl : ys.length > xs.length
  · rw [if_pos hl]
    refine ⟨false, rfl, by simp, ?_⟩
    rintro ⟨as, bs, rfl, h⟩
    rw [List.length_append, h.1] at hl
    omega
  · rw [if_neg hl]
    obtain ⟨r', pos', e, v⟩ := C50_drop_random_access hR true (xs.length - ys.length) (fun _ => by omega)
    rw [e]
    dsimp only
    rw [hasSuffix_iff (by omega)]
    refine C47_equal ⟨v.visits, fun n hn => ?_⟩ hQ eq (by rw [List.length_drop]; omega)
    simp only [Option.some.injEq] at hn
    rw [List.length_drop]; omega

/-! ## Examples -/

/-- Five numbers in memory. -/
def exMem : Algo.Mem Nat := fun i => [3, 1, 4, 1, 5][i]?

theorem exMem_seg : exMem.Seg 0 [3, 1, 4, 1, 5] := by intro i h; simp [exMem, List.getElem?_eq_getElem h]

/-- As a range that has no size. -/
def exRange : Range Nat Nat := memAsRange exMem 0 5 false

theorem exRange_is : exRange.Is [3, 1, 4, 1, 5] := memAsRange_is exMem_seg false

example : ∃ F, exRange.filter 6 (fun x => x != 1) = .ok F ∧ forEach F.ops 9 F.first = some (.ok [3, 4, 5]) := by
  obtain ⟨F, e, v⟩ := C50_filter exRange_is (fun x => x != 1) (N := 6) (by decide)
  exact ⟨F, e, v.1.forEach (by decide)⟩

example : forEach (exRange.take 5 3).ops 9 (exRange.take 5 3).first = some (.ok [3, 1, 4]) :=
  (C50_take exRange_is (by decide) 3).1.forEach (by decide)

example : forEach (exRange.checkSizeCounted 5 3).ops 9 (exRange.checkSizeCounted 5 3).first = some .exn :=
  ((C50_check_size_not_greater_than exRange_is (by decide) 3).2.1 (by decide)).forEach (by decide)

example : exRange.drop true 6 = .exn := (C50_drop_exactly exRange_is 6).2 (by decide)

example : forEach (reversed (memRange exMem 0 5) 0).toRng 9 5 = some (.ok [5, 1, 4, 1, 3]) := by
  have := (C50_reversed (memRange_indexed exMem_seg)).visits.forEach (f := 9) (by decide)
  simpa using this

example : ∃ R', (memAsRange exMem 0 5 true).dropBackExactly 5 5 2 = .ok R' ∧ R'.Is [3, 1, 4] :=
  (C50_drop_back_exactly (memAsRange_is exMem_seg true) rfl (by decide) 2).1 [3, 1, 4] [1, 5] rfl rfl

example : HasPrefix (fun x y : Nat => x == y) [3, 1, 4] [3, 1] ∧ ¬HasPrefix (fun x y : Nat => x == y) [3] [3, 1] ∧
    HasSuffix (fun x y : Nat => x == y) [3, 1, 4] [1, 4] := by
  refine ⟨⟨[3, 1], [4], rfl, rfl, ?_⟩, ?_, ⟨[3], [1, 4], rfl, rfl, ?_⟩⟩
  · intro k hk; simp at hk; interval_cases k <;> simp
  · rw [hasPrefix_iff]; rintro ⟨h, -⟩; simp at h
  · intro k hk; simp at hk; interval_cases k <;> simp

example : startsWith 5 exRange (memAsRange exMem 0 2 true) (fun x y => x == y) 6 = some (.ok true) ∧
    endsWithRA (memRange exMem 0 5) 0 5 (memAsRange exMem 3 5 true) (fun x y => x == y) 6 = some (.ok true) ∧
    endsWithRA (memRange exMem 0 5) 0 5 (memAsRange exMem 2 4 true) (fun x y => x == y) 6 = some (.ok false) := by
  decide +kernel

end Verif.Views
