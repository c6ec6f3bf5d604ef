import Verif.Views.Split

/-!
# Joining ranges (property C48)

Models /repo/source/containers/algorithms/join_with.cpp and join.cpp.
-/

namespace Verif.Views

open Verif Algo

variable {σ ρ τ κ : Type}

/-- `m_inner`, the variant of an iterator into the current inner range (with that range, see `with_inner_range_iterator`, join_with.cpp:37-115) and an
iterator into the joiner (join_with.cpp:194). -/
inductive JoinIn (σ ρ κ : Type) where
  | inner (range : Rng σ ρ) (it : σ)
  | joiner (it : κ)

/-- `join_with_iterator` (join_with.cpp:142-232): `m_outer_it` and `m_inner`. -/
structure JoinIt (σ ρ τ κ : Type) where
  outer : τ
  inside : JoinIn σ ρ κ

/-- `do_normalize` (join_with.cpp:196-217): the iterator afterwards and whether it is normalized. -/
def joinNormalize1 (O : Rng τ (Range σ ρ)) (J : Range κ ρ) (it : JoinIt σ ρ τ κ) : Res (JoinIt σ ρ τ κ × Bool) :=
  match it.inside with
  | .inner r s => do
    if !(← r.atEnd s) then .ok (it, true) else
    let outer ← O.next it.outer
    .ok (⟨outer, .joiner J.first⟩, false)
  | .joiner k => do
    if !(← J.ops.atEnd k) then .ok (it, true) else
    let R ← O.deref it.outer
    .ok (⟨it.outer, .inner R.ops R.first⟩, false)

/-- `normalize` (join_with.cpp:218-226); the fuel bounds the loop. -/
def joinNormalize (O : Rng τ (Range σ ρ)) (J : Range κ ρ) : Nat → JoinIt σ ρ τ κ → Res (JoinIt σ ρ τ κ)
  | 0, _ => .ub
  | f + 1, it => do
    if ← O.atEnd it.outer then .ok it else
    let p ← joinNormalize1 O J it
    if p.2 then .ok p.1 else joinNormalize O J f p.1

/-- The constructor, with an end iterator of the joiner (join_with.cpp:154-165). -/
def joinBegin (O : Rng τ (Range σ ρ)) (J : Range κ ρ) (joinerEnd : κ) (N : Nat) (first : τ) : Res (JoinIt σ ρ τ κ) :=
  joinNormalize O J N ⟨first, .joiner joinerEnd⟩

/-- The operations of the iterators (join_with.cpp:167-191). -/
def joinWith (O : Rng τ (Range σ ρ)) (J : Range κ ρ) (N : Nat) : Rng (JoinIt σ ρ τ κ) ρ where
  atEnd it := O.atEnd it.outer
  deref it :=
    match it.inside with
    | .inner r s => r.deref s
    | .joiner k => J.ops.deref k
  next it :=
    match it.inside with
    | .inner r s => do joinNormalize O J N ⟨it.outer, .inner r (← r.next s)⟩
    | .joiner k => do joinNormalize O J N ⟨it.outer, .joiner (← J.ops.next k)⟩

/-- `linear_size` of a joined range (join_with.cpp:267-299), from the sizes of the inner ranges and of the joiner. -/
def joinLinearSize (sizes : List Nat) (joiner : Nat) : Nat :=
  if sizes.isEmpty then 0 else sizes.sum + (sizes.length - 1) * joiner

/-! ## What the joined range visits -/

/-- What follows the current inner range: the joiner before each of the rest. -/
def joinTail (js : List ρ) (ps : List (List ρ)) : List ρ := (ps.map (js ++ ·)).flatten

theorem joinTail_cons (js p : List ρ) (ps : List (List ρ)) : joinTail js (p :: ps) = js ++ (p ++ joinTail js ps) := by
  simp [joinTail]

theorem intercalate_eq_tail (js p : List ρ) : ∀ ps : List (List ρ), js.intercalate (p :: ps) = p ++ joinTail js ps
  | [] => by rw [intercalate_singleton]; simp [joinTail]
  | q :: ps => by rw [intercalate_cons _ _ (by simp), intercalate_eq_tail js q ps, joinTail_cons]

variable {O : Rng τ (Range σ ρ)} {J : Range κ ρ} {js : List ρ}

mutual

theorem joinNormalize_inner (hJ : J.Is js) {N : Nat} {r : Rng σ ρ} : ∀ (ps : List (List ρ)) (ys : List ρ) {t : τ} {R : Range σ ρ} {Rs : List (Range σ ρ)}
    {s : σ} {f : Nat}, Visits r s ys → Visits O t (R :: Rs) → List.Forall₂ Range.Is Rs ps → 2 * ps.length + 2 ≤ f → 2 * ps.length + 2 ≤ N →
    ∃ it, joinNormalize O J f ⟨t, .inner r s⟩ = .ok it ∧ Visits (joinWith O J N) it (ys ++ joinTail js ps)
  | ps, y :: ys, t, R, Rs, s, f + 1, ⟨h1, h2, s', h3, h4⟩, hO, hF, hf, hN => by
    obtain ⟨it, e, v⟩ := joinNormalize_inner hJ ps ys (N := N) (f := N) h4 hO hF hN hN
    refine ⟨⟨t, .inner r s⟩, ?_, hO.1, h2, it, ?_, v⟩
    · rw [joinNormalize, hO.1, Res.ok_bind, if_neg (by simp), joinNormalize1]
      dsimp only
      rw [h1, Res.ok_bind, if_pos (by rfl), Res.ok_bind, if_pos (by rfl)]
    · rw [joinWith]
      dsimp only
      rw [h3, Res.ok_bind, e]
  | [], [], t, R, Rs, s, f + 2, h, ⟨o1, o2, t', o3, o4⟩, hF, hf, hN => by
    cases hF
    refine ⟨⟨t', .joiner J.first⟩, ?_, o4⟩
    rw [joinNormalize, o1, Res.ok_bind, if_neg (by simp), joinNormalize1]
    dsimp only
    rw [show r.atEnd s = .ok true from h, Res.ok_bind, if_neg (by simp), o3, Res.ok_bind, Res.ok_bind, if_neg (by simp), joinNormalize]
    rw [show O.atEnd t' = .ok true from o4, Res.ok_bind, if_pos rfl]
  | p :: ps, [], t, R, Rs, s, f + 1, h, ⟨o1, o2, t', o3, o4⟩, hF, hf, hN => by
    cases hF with
    | cons hR hF =>
      rw [List.length_cons] at hf hN
      obtain ⟨it, e, v⟩ := joinNormalize_joiner hJ ps p js (N := N) (f := f) hJ.1 hR o4 hF (by omega) (by omega)
      refine ⟨it, ?_, ?_⟩
      · rw [joinNormalize, o1, Res.ok_bind, if_neg (by simp), joinNormalize1]
        dsimp only
        rw [show r.atEnd s = .ok true from h, Res.ok_bind, if_neg (by simp), o3, Res.ok_bind, Res.ok_bind, if_neg (by simp), e]
      · rw [List.nil_append, joinTail_cons]
        exact v
  termination_by ps ys => (ps.length, 1, ys.length)

theorem joinNormalize_joiner (hJ : J.Is js) {N : Nat} : ∀ (ps : List (List ρ)) (p ks : List ρ) {t : τ} {R : Range σ ρ} {Rs : List (Range σ ρ)}
    {k : κ} {f : Nat}, Visits J.ops k ks → R.Is p → Visits O t (R :: Rs) → List.Forall₂ Range.Is Rs ps → 2 * ps.length + 3 ≤ f → 2 * ps.length + 3 ≤ N →
    ∃ it, joinNormalize O J f ⟨t, .joiner k⟩ = .ok it ∧ Visits (joinWith O J N) it (ks ++ (p ++ joinTail js ps))
  | ps, p, x :: ks, t, R, Rs, k, f + 1, ⟨h1, h2, k', h3, h4⟩, hR, hO, hF, hf, hN => by
    obtain ⟨it, e, v⟩ := joinNormalize_joiner hJ ps p ks (N := N) (f := N) h4 hR hO hF hN hN
    refine ⟨⟨t, .joiner k⟩, ?_, hO.1, h2, it, ?_, v⟩
    · rw [joinNormalize, hO.1, Res.ok_bind, if_neg (by simp), joinNormalize1]
      dsimp only
      rw [h1, Res.ok_bind, if_pos (by rfl), Res.ok_bind, if_pos (by rfl)]
    · rw [joinWith]
      dsimp only
      rw [h3, Res.ok_bind, e]
  | ps, p, [], t, R, Rs, k, f + 1, h, hR, hO, hF, hf, hN => by
    obtain ⟨it, e, v⟩ := joinNormalize_inner hJ ps p (N := N) (f := f) hR.1 hO hF (by omega) (by omega)
    refine ⟨it, ?_, v⟩
    rw [joinNormalize, hO.1, Res.ok_bind, if_neg (by simp), joinNormalize1]
    dsimp only
    rw [show J.ops.atEnd k = .ok true from h, Res.ok_bind, if_neg (by simp), hO.2.1, Res.ok_bind, Res.ok_bind, if_neg (by simp), e]
  termination_by ps p ks => (ps.length + 1, 0, ks.length)

end

/-- The joined range visits the elements of the inner ranges with the elements of the joiner between each two of them. -/
theorem C48_join_with {t : τ} {Rs : List (Range σ ρ)} {pieces : List (List ρ)} {joinerEnd : κ} (hO : Visits O t Rs) (hF : List.Forall₂ Range.Is Rs pieces)
    (hJ : J.Is js) (hend : J.ops.atEnd joinerEnd = .ok true) {N : Nat} (hN : 2 * pieces.length + 1 ≤ N) :
    ∃ it, joinBegin O J joinerEnd N t = .ok it ∧ Visits (joinWith O J N) it (js.intercalate pieces) := by
  cases hF with
  | nil =>
    obtain ⟨N, rfl⟩ : ∃ M, N = M + 1 := ⟨N - 1, by omega⟩
    refine ⟨⟨t, .joiner joinerEnd⟩, ?_, ?_⟩
    · rw [joinBegin, joinNormalize, show O.atEnd t = .ok true from hO, Res.ok_bind, if_pos rfl]
    · rw [intercalate_nil]
      exact hO
  | cons hR hF =>
    rename_i R p Rs ps
    rw [List.length_cons] at hN
    obtain ⟨it, e, v⟩ := joinNormalize_joiner (ps := ps) (p := p) (ks := []) (N := N) (f := N) hJ hend hR hO hF (by omega) (by omega)
    refine ⟨it, e, ?_⟩
    rw [intercalate_eq_tail]
    exact v

/-- `join` (join.cpp:22-29) is joining with an empty array: the range visits the elements of all inner ranges. -/
theorem C48_join {t : τ} {Rs : List (Range σ ρ)} {pieces : List (List ρ)} {joinerEnd : κ} (hO : Visits O t Rs) (hF : List.Forall₂ Range.Is Rs pieces)
    (hJ : J.Is []) (hend : J.ops.atEnd joinerEnd = .ok true) {N : Nat} (hN : 2 * pieces.length + 1 ≤ N) :
    ∃ it, joinBegin O J joinerEnd N t = .ok it ∧ Visits (joinWith O J N) it pieces.flatten := by
  have := C48_join_with hO hF hJ hend hN
  cases pieces with
  | nil => rwa [intercalate_nil] at this
  | cons p ps => simpa [intercalate_eq_tail, joinTail] using this

/-- `linear_size` is the number of elements. -/
theorem C48_join_with_linear_size (js : List ρ) (pieces : List (List ρ)) :
    joinLinearSize (pieces.map List.length) js.length = (js.intercalate pieces).length := by
  cases pieces with
  | nil => simp [joinLinearSize, intercalate_nil]
  | cons p ps =>
    rw [intercalate_eq_tail, joinLinearSize, if_neg (by simp), List.length_append, List.map_cons, List.sum_cons]
    have : (joinTail js ps).length = (ps.map List.length).sum + ps.length * js.length := by
      induction ps with
      | nil => simp [joinTail]
      | cons q ps ih => rw [joinTail_cons, List.length_append, List.length_append, ih, List.map_cons, List.sum_cons, List.length_cons, Nat.add_mul]; omega
    rw [this, List.length_cons, List.length_map, Nat.add_sub_cancel]
    omega

/-- The number of pieces of a split range fits the difference type of its iterators: at most one more than the greatest number of delimiters
(split.cpp:41-56). -/
theorem C48_split_difference_type {ds xs : List ρ} (hd : ds ≠ []) {pieces : List (List ρ)} (h : IsSplit ds xs pieces) :
    pieces.length ≤ xs.length / ds.length + 1 ∧ (pieces.intersperse ds).length ≤ xs.length / ds.length * 2 + 1 := by
  have hd0 : 0 < ds.length := List.length_pos_of_ne_nil hd
  have e := C48_join_with_linear_size ds pieces
  rw [h.join, joinLinearSize, if_neg (by simpa using h.ne), List.length_map] at e
  have hle : (pieces.length - 1) * ds.length ≤ xs.length := by omega
  have := (Nat.le_div_iff_mul_le hd0).2 hle
  have hpos := List.length_pos_of_ne_nil h.ne
  have hi : (pieces.intersperse ds).length = 2 * pieces.length - 1 := by simp [List.length_intersperse]
  omega

/-- Joining the pieces of a split range with the delimiter visits the original range: `join_with(split(range, d), d)`. -/
theorem C48_join_of_split [DecidableEq ρ] {r : Fwd σ ρ} {pos : Nat → σ} {xs : List ρ} (h : Positions r pos xs) {N : Nat} (hN : xs.length < N) {d : ρ} (hJ : J.Is [d])
    {joinerEnd : κ} (hend : J.ops.atEnd joinerEnd = .ok true) :
    let S := split r (singleDelim r N d)
    let O : Rng (SplitIt σ) (Range σ ρ) := { S.toRng with deref := fun s => do let q ← S.deref s; .ok ⟨(subrange r q.2).toRng, q.1, none⟩ }
    ∃ s it, splitBegin r (singleDelim r N d) (pos 0) = .ok s ∧ joinBegin O J joinerEnd (2 * xs.length + 3) s = .ok it ∧
      Visits (joinWith O J (2 * xs.length + 3)) it xs := by
  intro S O
  obtain ⟨pos', parts, pieces, h1, h2, h3, h4⟩ := C48_split h hN d
  have hsplit := isSplit_singleton.2 h3
  have hv := visits_transform (f := fun q : σ × σ => (⟨(subrange r q.2).toRng, q.1, none⟩ : Range σ ρ)) h2.visits
  have hF : List.Forall₂ Range.Is (parts.map fun q : σ × σ => (⟨(subrange r q.2).toRng, q.1, none⟩ : Range σ ρ)) pieces := by
    rw [List.forall₂_map_left_iff]
    exact h4.imp fun q c hq => ⟨hq, fun n hn => by cases hn⟩
  have hl := (C48_split_difference_type (by simp) hsplit).1
  obtain ⟨it, e, v⟩ := C48_join_with (O := O) hv hF hJ hend (N := 2 * xs.length + 3) (by simp at hl; omega)
  rw [h3.2.1] at v
  exact ⟨_, it, h1, e, v⟩

/-! ## Examples -/

/-- Ranges in memory as the elements of a list. -/
def exOuter (Rs : List (Range Nat Nat)) : Rng Nat (Range Nat Nat) where
  atEnd i := .ok (decide (i = Rs.length))
  deref i := ofOption Rs[i]?
  next i := .ok (i + 1)

/-- Part of an array, for examples. -/
def exPiece (a b : Nat) : Range Nat Nat := ⟨(memRange exMem a b).toRng, a, none⟩

example : ∃ s, joinBegin (exOuter [exPiece 0 2, exPiece 2 2, exPiece 4 5]) (exPiece 1 2) 2 9 0 = .ok s ∧
    forEach (joinWith (exOuter [exPiece 0 2, exPiece 2 2, exPiece 4 5]) (exPiece 1 2) 9) 9 s = some (.ok [3, 1, 1, 1, 5]) := ⟨_, rfl, by decide +kernel⟩

example : ∃ s, joinBegin (exOuter [exPiece 2 2, exPiece 2 2]) (exPiece 1 1) 1 9 0 = .ok s ∧
    forEach (joinWith (exOuter [exPiece 2 2, exPiece 2 2]) (exPiece 1 1) 9) 9 s = some (.ok []) := ⟨_, rfl, by decide +kernel⟩

end Verif.Views
