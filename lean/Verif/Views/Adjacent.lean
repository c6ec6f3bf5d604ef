import Verif.Views.Zip

/-!
# Adjacent elements and chunks (C50)
-/

namespace Verif.Views

variable {σ ρ : Type}

/-! ## adjacent -/

/-- The constructor of `adjacent_iterator` (`algorithms/adjacent.cpp` 63-74): iterators to the first elements, not going past the end. -/
def adjacentBegin (r : Rng σ ρ) : Nat → σ → Res (List σ)
  | 0, _ => .ok []
  | k + 1, s => do .ok (s :: (← adjacentBegin r k (← (do if ← r.atEnd s then .ok s else r.next s))))

/-- `containers::back(m_its)`. The group size is not zero. -/
def backOf (its : List σ) : Res σ :=
  match its.getLast? with
  | some s => .ok s
  | none => .ub

/-- `adjacent_iterator` with `adjacent_sentinel` (`algorithms/adjacent.cpp` 57-129). Advancing by one moves the iterators down by one
place and advances the last one. -/
def adjacent (r : RA σ ρ) : RA (List σ) (List ρ) where
  atEnd its := do r.atEnd (← backOf its)
  deref its := mapRes r.deref its
  next its := do .ok (its.tail ++ [← r.next (← backOf its)])
  eq a b := do r.eq (← backOf a) (← backOf b)
  add its d := mapRes (fun s => r.add s d) its
  sub a b := do r.sub (← backOf a) (← backOf b)
  cmp a b := do r.cmp (← backOf a) (← backOf b)

/-- The same for forward iterators, which have no arithmetic. -/
def adjacentFwd (r : Fwd σ ρ) : Fwd (List σ) (List ρ) where
  atEnd its := do r.atEnd (← backOf its)
  deref its := mapRes r.deref its
  next its := do .ok (its.tail ++ [← r.next (← backOf its)])
  eq a b := do r.eq (← backOf a) (← backOf b)

/-- `adjacent::size` (`algorithms/adjacent.cpp` 165-172). -/
def adjacentSize (n k : Nat) : Nat := if n < k then 0 else n - k + 1

/-- `adjacent_sentinel - adjacent_iterator` (`algorithms/adjacent.cpp` 103-106). `D` is the largest value of the difference type of the
underlying range, the difference type of `adjacent` is smaller by the size of a group (45-55). `last - it` is given by the
underlying range. -/
def adjacentEndMinus (D k : Nat) (endMinus : σ → Res Int) (its : List σ) : Res Int := do
  let d ← endMinus (← backOf its)
  if d.natAbs ≤ D - k then .ok d else .ub

/-- The specification: all groups of `k` elements that are next to each other. -/
def windows (k : Nat) (xs : List ρ) : List (List ρ) := (List.range (xs.length + 1 - k)).map fun i => (xs.drop i).take k

/-- The iterators at position `i`. -/
def adjPos (k n : Nat) (pos : Nat → σ) (i : Nat) : List σ := (List.range k).map fun j => pos (min (i + j) n)

theorem adjPos_succ (k n : Nat) (pos : Nat → σ) (i : Nat) : adjPos (k + 1) n pos i = adjPos k n pos i ++ [pos (min (i + k) n)] := by
  rw [adjPos, List.range_succ, List.map_append]; rfl

theorem backOf_adjPos {k n : Nat} (hk : 0 < k) (pos : Nat → σ) (i : Nat) : backOf (adjPos k n pos i) = .ok (pos (min (i + (k - 1)) n)) := by
  obtain ⟨k, rfl⟩ : ∃ j, k = j + 1 := ⟨k - 1, by omega⟩
  rw [adjPos_succ, backOf, List.getLast?_concat, Nat.add_sub_cancel]

theorem adjPos_cons (k n : Nat) (pos : Nat → σ) (i : Nat) : adjPos (k + 1) n pos i = pos (min i n) :: adjPos k n pos (i + 1) := by
  rw [adjPos, List.range_succ_eq_map, List.map_cons, List.map_map]
  congr 1
  apply List.map_congr_left
  intro j _
  simp only [Function.comp_apply, Nat.succ_eq_add_one]
  congr 2; omega

theorem length_windows (k : Nat) (xs : List ρ) : (windows k xs).length = xs.length + 1 - k := by simp [windows]

theorem mapRes_map {α β γ : Type} {f : β → Res γ} {g : α → β} {h : α → γ} : ∀ {l : List α}, (∀ a ∈ l, f (g a) = .ok (h a)) → mapRes f (l.map g) = .ok (l.map h)
  | [], _ => rfl
  | a :: l, hl => by
    rw [List.map_cons, mapRes, hl a (by simp), Res.ok_bind, mapRes_map fun b hb => hl b (by simp [hb]), Res.ok_bind, List.map_cons]

theorem adjacentBegin_spec {r : Fwd σ ρ} {pos : Nat → σ} {xs : List ρ} (h : Positions r pos xs) : ∀ (k i : Nat), i ≤ xs.length →
    adjacentBegin r.toRng k (pos i) = .ok (adjPos k xs.length pos i)
  | 0, _, _ => rfl
  | k + 1, i, hi => by
    rw [adjacentBegin, h.atEnd i hi, Res.ok_bind, adjPos_cons, Nat.min_eq_left hi]
    by_cases he : i = xs.length
    · rw [if_pos (by simpa using he), Res.ok_bind, adjacentBegin_spec h k i hi, Res.ok_bind]
      congr 2
      apply List.map_congr_left
      intro j _
      congr 1; omega
    · rw [if_neg (by simpa using he), h.next i (by omega), Res.ok_bind, adjacentBegin_spec h k (i + 1) (by omega), Res.ok_bind]

theorem adjacent_deref {r : Fwd σ ρ} {pos : Nat → σ} {xs : List ρ} (h : Positions r pos xs) : ∀ (k i : Nat), i + k ≤ xs.length →
    mapRes r.deref (adjPos k xs.length pos i) = .ok ((xs.drop i).take k)
  | 0, _, _ => by rw [List.take_zero]; rfl
  | k + 1, i, hi => by
    rw [adjPos_cons, mapRes, Nat.min_eq_left (by omega), h.deref i (by omega), Res.ok_bind, adjacent_deref h k (i + 1) (by omega), Res.ok_bind,
      List.drop_eq_getElem_cons (l := xs) (i := i) (by omega), List.take_succ_cons]

theorem adjacentFwd_positions {r : Fwd σ ρ} {pos : Nat → σ} {xs : List ρ} (h : Positions r pos xs) {k : Nat} (hk : 0 < k) :
    Positions (adjacentFwd r) (adjPos k xs.length pos) (windows k xs) := by
  refine ⟨?_, ?_, ?_, ?_⟩
  · intro i hi
    rw [length_windows] at hi ⊢
    rw [adjacentFwd]
    dsimp only
    rw [backOf_adjPos hk, Res.ok_bind, h.atEnd _ (by omega), Res.ok.injEq, decide_eq_decide]
    omega
  · intro i hi
    rw [length_windows] at hi
    rw [adjacentFwd]
    dsimp only
    rw [adjacent_deref h k i (by omega)]
    simp only [windows, List.getElem_map, List.getElem_range]
  · intro i hi
    rw [length_windows] at hi
    rw [adjacentFwd]
    dsimp only
    rw [backOf_adjPos hk, Res.ok_bind, h.next _ (by omega), Res.ok_bind, Res.ok.injEq]
    obtain ⟨k, rfl⟩ : ∃ j, k = j + 1 := ⟨k - 1, by omega⟩
    rw [adjPos_cons, List.tail_cons, adjPos_succ]
    congr 3; omega
  · intro i j hi hj
    rw [length_windows] at hi hj
    rw [adjacentFwd]
    dsimp only
    rw [backOf_adjPos hk, Res.ok_bind, backOf_adjPos hk, Res.ok_bind, h.eq _ _ (by omega) (by omega), Res.ok.injEq, decide_eq_decide]
    omega

/-- `adjacent` gives the groups of adjacent elements, in order; none if there are fewer elements than in a group. -/
theorem C50_adjacent {r : Fwd σ ρ} {pos : Nat → σ} {xs : List ρ} (h : Positions r pos xs) {k : Nat} (hk : 0 < k) :
    ∃ pos', adjacentBegin r.toRng k (pos 0) = .ok (pos' 0) ∧ Positions (adjacentFwd r) pos' (windows k xs) :=
  ⟨adjPos k xs.length pos, adjacentBegin_spec h k 0 (by omega), adjacentFwd_positions h hk⟩

/-- With random access it is a random access range. -/
theorem C50_adjacent_random_access {r : RA σ ρ} {pos : Nat → σ} {xs : List ρ} (h : Indexed r pos xs) {k : Nat} (hk : 0 < k) :
    ∃ pos', adjacentBegin r.toRng k (pos 0) = .ok (pos' 0) ∧ Indexed (adjacent r) pos' (windows k xs) := by
  refine ⟨adjPos k xs.length pos, adjacentBegin_spec h.toPositions k 0 (by omega), adjacentFwd_positions h.toPositions hk, ?_, ?_, ?_⟩
  · intro i j hi hj
    rw [length_windows] at hi hj
    rw [adjacent]
    dsimp only
    rw [adjPos, adjPos]
    apply mapRes_map
    intro l hl
    rw [List.mem_range] at hl
    have := h.add (min (i + l) xs.length) (min (j + l) xs.length) (by omega) (by omega)
    rw [← this]
    congr 1; omega
  · intro i j hi hj
    rw [length_windows] at hi hj
    rw [adjacent]
    dsimp only
    rw [backOf_adjPos hk, Res.ok_bind, backOf_adjPos hk, Res.ok_bind, h.sub _ _ (by omega) (by omega), Res.ok.injEq]
    omega
  · intro i j hi hj
    rw [length_windows] at hi hj
    rw [adjacent]
    dsimp only
    rw [backOf_adjPos hk, Res.ok_bind, backOf_adjPos hk, Res.ok_bind, h.cmp _ _ (by omega) (by omega), Res.ok.injEq, Nat.compare_eq_ite_lt,
      Nat.compare_eq_ite_lt]
    split_ifs <;> first | omega | rfl

/-- `size()` is the number of groups. -/
theorem C50_adjacent_size (xs : List ρ) {k : Nat} (hk : 0 < k) : adjacentSize xs.length k = (windows k xs).length := by
  rw [length_windows, adjacentSize]
  split <;> omega

/-- The end minus an iterator is the number of groups from there on, as long as that is not more than the difference type can hold. -/
theorem C50_adjacent_end_minus_partial {r : RA σ ρ} {pos : Nat → σ} {xs : List ρ} (h : Indexed r pos xs) {k : Nat} (hk : 0 < k) {D : Nat}
    (hD : xs.length + 1 ≤ D) {i : Nat} (hi : i ≤ (windows k xs).length) :
    adjacentEndMinus D k (fun s => r.sub (pos xs.length) s) (adjPos k xs.length pos i) = .ok ((windows k xs).length - i : Nat) := by
  rw [length_windows] at hi ⊢
  rw [adjacentEndMinus, backOf_adjPos hk, Res.ok_bind, h.sub _ _ (by omega) (by omega), Res.ok_bind, if_pos (by omega), Res.ok.injEq]
  omega

/-- For a range that is as long as its difference type allows, like every `array`, the end minus the begin is undefined: the
difference type is too small by one. The array has four elements, so three groups of two; the largest difference is taken to be two. -/
theorem C50_adjacent_end_minus_violated : ∃ (m : Algo.Mem Nat) (xs : List Nat) (its : List Nat),
    m.Seg 0 xs ∧ xs.length = 4 ∧ adjacentBegin (memRange m 0 4).toRng 2 0 = .ok its ∧ adjacentSize 4 2 = 3 ∧
    adjacentEndMinus 4 2 (fun s => (memRange m 0 4).sub 4 s) its = .ub :=
  ⟨fun i => [1, 2, 3, 4][i]?, [1, 2, 3, 4], [0, 1], by intro i h; simp [List.getElem?_eq_getElem h], rfl, rfl, rfl, rfl⟩

/-! ## chunk_by -/

/-- Whether a pair of adjacent elements is a border of chunks (chunk_by.cpp, the negated predicate given to `find_if`). -/
def breaks (p : ρ → ρ → Bool) : List ρ → Bool
  | [a, b] => !p a b
  | _ => false

/-- `chunk_by_iterator::find_from_first` (`algorithms/chunk_by.cpp` 71-79): the end of the chunk that starts at `first`. -/
def chunkEnd (r : Fwd σ ρ) (p : ρ → ρ → Bool) (N : Nat) (first : σ) : Res σ := do
  let its ← adjacentBegin r.toRng 2 first
  let its ← findIfR (adjacentFwd r).toRng (breaks p) N its
  backOf its

/-- `chunk_by_iterator` (`algorithms/chunk_by.cpp` 30-85): the chunk from `m_first` to `m_middle`. An element is the pair of iterators
of the subrange. -/
def chunkBy (r : Fwd σ ρ) (p : ρ → ρ → Bool) (N : Nat) : Fwd (σ × σ) (σ × σ) where
  atEnd s := r.atEnd s.1
  deref s := .ok (s.1, s.2)
  next s := do .ok (s.2, ← chunkEnd r p N s.2)
  eq a b := r.eq a.1 b.1

/-- `chunk_by::begin` (`algorithms/chunk_by.cpp` 95-115). -/
def chunkByBegin (r : Fwd σ ρ) (p : ρ → ρ → Bool) (N : Nat) (first : σ) : Res (σ × σ) := do .ok (first, ← chunkEnd r p N first)

/-- The specification of the chunks: none is empty, together they are the elements, within a chunk all adjacent elements satisfy the
condition and at the border between two chunks the adjacent elements do not. -/
structure IsChunks (p : ρ → ρ → Bool) (xs : List ρ) (chunks : List (List ρ)) : Prop where
  flatten : chunks.flatten = xs
  nonempty : ∀ c ∈ chunks, c ≠ []
  inside : ∀ c ∈ chunks, c.IsChain fun a b => p a b = true
  border : chunks.IsChain fun c d => ∀ a ∈ c.getLast?, ∀ b ∈ d.head?, p a b = false

theorem Positions.suffix {r : Fwd σ ρ} {pos : Nat → σ} {xs : List ρ} (h : Positions r pos xs) (i : Nat) (hi : i ≤ xs.length) :
    Positions r (fun k => pos (i + k)) (xs.drop i) := by
  have hl : (xs.drop i).length = xs.length - i := List.length_drop
  constructor
  · intro k hk; rw [hl] at hk ⊢; rw [h.atEnd _ (by omega), Res.ok.injEq, decide_eq_decide]; omega
  · intro k hk; rw [hl] at hk; rw [h.deref _ (by omega), List.getElem_drop]
  · intro k hk; rw [hl] at hk; rw [h.next _ (by omega), Nat.add_assoc]
  · intro k l hk hl'; rw [hl] at hk hl'; rw [h.eq _ _ (by omega) (by omega), Res.ok.injEq, decide_eq_decide]; omega

/-- The length of the first chunk. -/
def chunkLen (p : ρ → ρ → Bool) (xs : List ρ) : Nat :=
  matchIdx (breaks p) (windows 2 xs) 0

theorem chunkEnd_spec {r : Fwd σ ρ} {pos : Nat → σ} {xs : List ρ} (h : Positions r pos xs) (p : ρ → ρ → Bool) {N : Nat} (hN : xs.length < N) {i : Nat}
    (hi : i < xs.length) : chunkEnd r p N (pos i) = .ok (pos (i + (chunkLen p (xs.drop i) + 1))) ∧ i + (chunkLen p (xs.drop i) + 1) ≤ xs.length := by
  have hs := h.suffix i (by omega)
  have hl : (xs.drop i).length = xs.length - i := List.length_drop
  have hb := adjacentBegin_spec hs 2 0 (by omega)
  have pa := adjacentFwd_positions hs (k := 2) (by omega)
  have hf := pa.findIfR (p := breaks p) (windows 2 (xs.drop i)).length 0 N (by omega)
    (by rw [length_windows]; omega)
  have hm : chunkLen p (xs.drop i) ≤ (windows 2 (xs.drop i)).length := by
    rw [chunkLen]
    rcases Nat.lt_or_ge 0 ((windows 2 (xs.drop i)).filter (breaks p)).length with h0 | h0
    · exact Nat.le_of_lt (matchIdx_lt h0).1
    · exact Nat.le_of_eq (matchIdx_end h0)
  rw [length_windows] at hm
  rw [Nat.zero_add, List.drop_zero, ← chunkLen] at hf
  refine ⟨?_, by omega⟩
  rw [chunkEnd]
  rw [Nat.add_zero] at hb
  rw [hb, Res.ok_bind, hf, Res.ok_bind, backOf_adjPos (by omega)]
  congr 2; omega

theorem matchIdx_before {p : ρ → Bool} : ∀ {xs : List ρ} {j : Nat} (_ : j < matchIdx p xs 0) (hl : j < xs.length), p xs[j] = false
  | [], _, _, hl => by simp at hl
  | x :: xs, j, h, hl => by
    rw [matchIdx] at h
    split at h
    · omega
    · rename_i hp
      cases j with
      | zero => simpa using hp
      | succ j => exact matchIdx_before (p := p) (xs := xs) (j := j) (by omega) (by simpa using hl)

theorem windows_two {xs : List ρ} {j : Nat} (h : j + 1 < xs.length) : ∃ hw : j < (windows 2 xs).length, (windows 2 xs)[j] = [xs[j], xs[j + 1]] := by
  refine ⟨by rw [length_windows]; omega, ?_⟩
  simp only [windows, List.getElem_map, List.getElem_range]
  rw [List.drop_eq_getElem_cons (l := xs) (i := j) (by omega), List.take_succ_cons, List.drop_eq_getElem_cons (l := xs) (i := j + 1) (by omega),
    List.take_succ_cons, List.take_zero]

/-- The first chunk. -/
theorem chunkLen_spec (p : ρ → ρ → Bool) (ys : List ρ) (hne : ys ≠ []) :
    chunkLen p ys + 1 ≤ ys.length ∧ (∀ j (_ : j + 1 < chunkLen p ys + 1) (hl : j + 1 < ys.length), p ys[j] ys[j + 1] = true) ∧
    (∀ h : chunkLen p ys + 1 < ys.length, p ys[chunkLen p ys] ys[chunkLen p ys + 1] = false) := by
  have hpos : 0 < ys.length := List.length_pos_of_ne_nil hne
  have hm : chunkLen p ys ≤ (windows 2 ys).length := by
    rw [chunkLen]
    rcases Nat.lt_or_ge 0 ((windows 2 ys).filter (breaks p)).length with h0 | h0
    · exact Nat.le_of_lt (matchIdx_lt h0).1
    · exact Nat.le_of_eq (matchIdx_end h0)
  rw [length_windows] at hm
  refine ⟨by omega, fun j hj hl => ?_, fun h => ?_⟩
  · obtain ⟨hw, e⟩ := windows_two hl
    have := matchIdx_before (p := breaks p) (xs := windows 2 ys) (j := j) (by rw [← chunkLen]; omega) hw
    rw [e] at this
    simpa [breaks] using this
  · have h0 : 0 < ((windows 2 ys).filter (breaks p)).length := by
      by_contra hn
      have := matchIdx_end (p := breaks p) (xs := windows 2 ys) (k := 0) (by omega)
      rw [← chunkLen, length_windows] at this
      omega
    obtain ⟨hlt, e⟩ := matchIdx_lt h0
    have hmem := List.getElem_mem h0
    rw [← e, List.mem_filter] at hmem
    have h2 := hmem.2
    obtain ⟨hw, e'⟩ := windows_two h
    have e2 : (windows 2 ys)[matchIdx (breaks p) (windows 2 ys) 0] = [ys[chunkLen p ys], ys[chunkLen p ys + 1]] := e'
    have h3 := (congrArg (breaks p) e2).symm.trans h2
    simpa [breaks] using h3

theorem isChain_of_getElem {R : ρ → ρ → Prop} {xs : List ρ} (h : ∀ j (hl : j + 1 < xs.length), R xs[j] xs[j + 1]) : xs.IsChain R := by
  rw [List.isChain_iff_getElem]
  exact h

theorem chunks_from {r : Fwd σ ρ} {pos : Nat → σ} {xs : List ρ} (h : Positions r pos xs) (p : ρ → ρ → Bool) {N : Nat} (hN : xs.length < N) :
    ∀ (n i : Nat), xs.length - i ≤ n → i ≤ xs.length → ∃ e parts chunks, chunkEnd r p N (pos i) = .ok e ∧ Visits (chunkBy r p N).toRng (pos i, e) parts ∧
      IsChunks p (xs.drop i) chunks ∧ List.Forall₂ (fun q c => Visits (subrange r q.2).toRng q.1 c) parts chunks ∧
      ∃ ks : List Nat, parts.map Prod.fst = ks.map pos ∧ ks.Pairwise (· < ·) ∧ ∀ k ∈ ks, i ≤ k ∧ k < xs.length
  | n, i, hn, hi => by
    by_cases he : i = xs.length
    · subst he
      have hb := adjacentBegin_spec h 2 xs.length (Nat.le_refl _)
      have e : chunkEnd r p N (pos xs.length) = .ok (pos xs.length) := by
        have hat : (adjacentFwd r).atEnd (adjPos 2 xs.length pos xs.length) = .ok true := by
          rw [adjacentFwd]
          dsimp only
          rw [backOf_adjPos (by omega), Res.ok_bind, h.atEnd _ (by omega), Res.ok.injEq, decide_eq_true_iff]
          omega
        obtain ⟨N, rfl⟩ : ∃ M, N = M + 1 := ⟨N - 1, by omega⟩
        rw [chunkEnd, hb, Res.ok_bind, findIfR, hat, Res.ok_bind, if_pos rfl, Res.ok_bind, backOf_adjPos (by omega)]
        congr 2; omega
      refine ⟨_, [], [], e, ?_, ?_, .nil, [], rfl, .nil, by simp⟩
      · rw [Visits, chunkBy]
        dsimp only
        rw [h.atEnd _ (Nat.le_refl _), Res.ok.injEq, decide_eq_true_iff]
      · rw [List.drop_length]
        exact ⟨rfl, by simp, by simp, .nil⟩
    · obtain ⟨n, rfl⟩ : ∃ m, n = m + 1 := ⟨n - 1, by omega⟩
      have hlt : i < xs.length := by omega
      obtain ⟨e1, hle⟩ := chunkEnd_spec h p hN hlt
      have hl : (xs.drop i).length = xs.length - i := List.length_drop
      have hne : xs.drop i ≠ [] := by intro e; rw [e] at hl; simp at hl; omega
      obtain ⟨c1, c2, c3⟩ := chunkLen_spec p (xs.drop i) hne
      obtain ⟨c, hc⟩ : ∃ c, chunkLen p (xs.drop i) = c := ⟨_, rfl⟩
      simp only [hc] at e1 hle c1 c2 c3
      obtain ⟨e', parts, chunks, e2, v, ic, f, ks, k1, k2, k3⟩ := chunks_from h p hN n (i + (c + 1)) (by omega) hle
      refine ⟨_, (pos i, pos (i + (c + 1))) :: parts, (xs.drop i).take (c + 1) :: chunks, e1, ⟨?_, rfl, (pos (i + (c + 1)), e'), ?_, v⟩, ?_, .cons ?_ f,
        i :: ks, by rw [List.map_cons, List.map_cons, k1], List.pairwise_cons.2 ⟨fun k hk => by have := k3 k hk; omega, k2⟩, fun k hk => by
          rcases List.mem_cons.1 hk with rfl | hk
          · omega
          · have := k3 k hk; omega⟩
      · rw [chunkBy]
        dsimp only
        rw [h.atEnd _ hi, Res.ok.injEq, decide_eq_false_iff_not]
        exact he
      · rw [chunkBy]
        dsimp only
        rw [e2, Res.ok_bind]
      · have hlen : ((xs.drop i).take (c + 1)).length = c + 1 := by rw [List.length_take]; omega
        constructor
        · rw [List.flatten_cons, ic.flatten, ← List.drop_drop, List.take_append_drop]
        · intro d hd
          rcases List.mem_cons.1 hd with rfl | hd
          · intro e; rw [e] at hlen; simp at hlen
          · exact ic.nonempty d hd
        · intro d hd
          rcases List.mem_cons.1 hd with rfl | hd
          · apply isChain_of_getElem
            intro j hj
            rw [hlen] at hj
            rw [List.getElem_take, List.getElem_take]
            exact c2 j hj (by omega)
          · exact ic.inside d hd
        · have hb := ic.border
          have hfl := ic.flatten
          have hne' := ic.nonempty
          clear f v e2
          cases chunks with
          | nil => exact .singleton _
          | cons d chunks =>
            refine .cons_cons ?_ hb
            intro a ha b hb'
            rw [List.getLast?_eq_getElem?, hlen, Nat.add_sub_cancel, List.getElem?_take_of_lt (by omega)] at ha
            have hd := hne' d (by simp)
            have hbx : (xs.drop (i + (c + 1)))[0]? = some b := by
              rw [← hfl, List.flatten_cons]
              cases d with
              | nil => exact absurd rfl hd
              | cons b' d => simpa using hb'
            rw [List.getElem?_drop] at hbx
            have hlt2 : c + 1 < (xs.drop i).length := by
              obtain ⟨hh, -⟩ := List.getElem?_eq_some_iff.1 hbx
              omega
            have := c3 hlt2
            rw [List.getElem?_eq_getElem (by omega), Option.mem_def, Option.some.injEq] at ha
            have hb2 : (xs.drop i)[c + 1] = b := by
              rw [List.getElem_drop]
              obtain ⟨hh, e⟩ := List.getElem?_eq_some_iff.1 hbx
              rw [← e]
              congr 1
            rw [ha, hb2] at this
            exact this
      · have := (h.subrange (i := i) (j := i + (c + 1)) (by omega) hle).visits
        rw [show i + (c + 1) - i = c + 1 by omega] at this
        exact this

/-- `chunk_by` gives the chunks. Each of them is a subrange with its elements. -/
theorem C50_chunk_by {r : Fwd σ ρ} {pos : Nat → σ} {xs : List ρ} (h : Positions r pos xs) (p : ρ → ρ → Bool) {N : Nat} (hN : xs.length < N) :
    ∃ s parts chunks, chunkByBegin r p N (pos 0) = .ok s ∧ Visits (chunkBy r p N).toRng s parts ∧ IsChunks p xs chunks ∧
      List.Forall₂ (fun q c => Visits (subrange r q.2).toRng q.1 c) parts chunks := by
  obtain ⟨e, parts, chunks, h1, h2, h3, h4, -⟩ := chunks_from h p hN xs.length 0 (by omega) (by omega)
  rw [List.drop_zero] at h3
  exact ⟨_, parts, chunks, by rw [chunkByBegin, h1, Res.ok_bind], h2, h3, h4⟩

/-- Two iterators of `chunk_by` are equal if and only if they are at the same chunk. (The iterator at a chunk is the pair of iterators that it gives.) -/
theorem C50_chunk_by_equality {r : Fwd σ ρ} {pos : Nat → σ} {xs : List ρ} (h : Positions r pos xs) (p : ρ → ρ → Bool) {N : Nat} (hN : xs.length < N) :
    ∃ s parts, chunkByBegin r p N (pos 0) = .ok s ∧ Visits (chunkBy r p N).toRng s parts ∧
      ∀ i j (hi : i < parts.length) (hj : j < parts.length), (chunkBy r p N).eq parts[i] parts[j] = .ok (decide (i = j)) := by
  obtain ⟨e, parts, chunks, h1, h2, -, -, ks, k1, k2, k3⟩ := chunks_from h p hN xs.length 0 (by omega) (by omega)
  refine ⟨_, parts, by rw [chunkByBegin, h1, Res.ok_bind], h2, fun i j hi hj => ?_⟩
  have hl : parts.length = ks.length := by simpa using congrArg List.length k1
  have at' : ∀ i (hi : i < parts.length), parts[i].1 = pos (ks[i]'(by omega)) := fun i hi => by
    have : (parts.map Prod.fst)[i]'(by simpa using hi) = (ks.map pos)[i]'(by simpa using hl ▸ hi) := by simp only [k1]
    simpa using this
  have bound : ∀ i (hi : i < parts.length), ks[i]'(by omega) < xs.length := fun i hi => (k3 _ (List.getElem_mem _)).2
  show r.eq parts[i].1 parts[j].1 = _
  rw [at' i hi, at' j hj, h.eq _ _ (bound i hi).le (bound j hj).le, Res.ok.injEq, decide_eq_decide]
  have mono : ∀ i j (hi : i < ks.length) (hj : j < ks.length), i < j → ks[i] < ks[j] := fun i j hi hj hij => List.pairwise_iff_getElem.1 k2 i j hi hj hij
  constructor
  · intro hk
    rcases Nat.lt_trichotomy i j with g | g | g
    · have := mono i j (by omega) (by omega) g; omega
    · exact g
    · have := mono j i (by omega) (by omega) g; omega
  · rintro rfl; rfl

/-! ## Examples -/

example : ∃ its, adjacentBegin (memRange exMem 0 5).toRng 3 0 = .ok its ∧
    forEach (adjacent (memRange exMem 0 5)).toRng 9 its = some (.ok [[3, 1, 4], [1, 4, 1], [4, 1, 5]]) := ⟨_, rfl, by decide +kernel⟩

example : ∃ its, adjacentBegin (memRange exMem 0 2).toRng 3 0 = .ok its ∧ forEach (adjacent (memRange exMem 0 2)).toRng 9 its = some (.ok []) :=
  ⟨_, rfl, by decide +kernel⟩

example : ∃ s, chunkByBegin (memRange exMem 0 5).toFwd (fun a b => a ≤ b) 6 0 = .ok s ∧
    forEach (chunkBy (memRange exMem 0 5).toFwd (fun a b => a ≤ b) 6).toRng 9 s = some (.ok [(0, 1), (1, 3), (3, 5)]) := ⟨_, rfl, by decide +kernel⟩

example : IsChunks (fun a b : Nat => decide (a ≤ b)) [3, 1, 4, 1, 5] [[3], [1, 4], [1, 5]] := by
  refine ⟨rfl, by simp, ?_, ?_⟩
  · intro c hc
    simp only [List.mem_cons, List.not_mem_nil, or_false] at hc
    rcases hc with rfl | rfl | rfl <;> simp
  · simp

end Verif.Views
