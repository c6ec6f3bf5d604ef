import Verif.Views.Adjacent
import Mathlib.Data.List.Forall2

/-!
# Splitting ranges (property C48)

Models /repo/source/containers/algorithms/split.cpp.
-/

namespace Verif.Views

open Verif Algo

variable {σ ρ : Type}

/-! ## The delimiters -/

/-- What the split iterators use of a delimiter. -/
structure Delim (σ : Type) where
  find : σ → Res σ
  skip : σ → Res σ

/-- `single_element_delimiter` (split.cpp:62-83); `N` bounds the loop of `find`. -/
def singleDelim [DecidableEq ρ] (r : Fwd σ ρ) (N : Nat) (d : ρ) : Delim σ where
  find s := findIfR r.toRng (fun x => decide (x = d)) N s
  skip s := r.next s

/-- Whether the range has the elements `ds` from the iterator on. -/
def matchHere [DecidableEq ρ] (r : Rng σ ρ) : List ρ → σ → Res Bool
  | [], _ => .ok true
  | d :: ds, s => do
    if ← r.atEnd s then .ok false else
    if (← r.deref s) = d then matchHere r ds (← r.next s) else .ok false

/-- `std::search`, which is not part of the code that is verified: the first iterator from which on there are the elements `ds`, or the end. -/
def stdSearch [DecidableEq ρ] (r : Rng σ ρ) (ds : List ρ) : Nat → σ → Res σ
  | 0, _ => .ub
  | f + 1, s => do
    if ← matchHere r ds s then .ok s else
    if ← r.atEnd s then .ok s else
    stdSearch r ds f (← r.next s)

/-- `range_delimiter` (split.cpp:85-113). The delimiter is given by its elements. -/
def rangeDelim [DecidableEq ρ] (r : Fwd σ ρ) (N : Nat) (ds : List ρ) : Delim σ where
  find s := stdSearch r.toRng ds N s
  skip s := advance r.toRng ds.length s

/-! ## The iterators -/

/-- `split_iterator` with `never_output_delimiter` (split.cpp:115-192): `m_first`, `m_middle` and `m_empty_trailing_range`. -/
structure SplitIt (σ : Type) where
  first : σ
  middle : σ
  empty : Bool

/-- The constructor (split.cpp:122-130). -/
def splitBegin (r : Fwd σ ρ) (D : Delim σ) (first : σ) : Res (SplitIt σ) := do
  let middle ← D.find first
  .ok ⟨first, middle, ← r.atEnd first⟩

/-- The operations of the iterators (split.cpp:132-181, the first branch of `+`). -/
def split (r : Fwd σ ρ) (D : Delim σ) : Fwd (SplitIt σ) (σ × σ) where
  atEnd it := do .ok ((← r.atEnd it.first) && !it.empty)
  deref it := .ok (it.first, it.middle)
  next it := do
    if ← r.atEnd it.middle then .ok ⟨it.middle, it.middle, false⟩ else
    if it.empty then .ub else
    let first ← D.skip it.middle
    let empty ← r.atEnd first
    .ok ⟨first, ← D.find first, empty⟩
  eq a b := do .ok ((← r.eq a.first b.first) && a.empty == b.empty)

/-- `operator<=>` (split.cpp:170-175). -/
def splitCmp (r : RA σ ρ) (a b : SplitIt σ) : Res Ordering := do
  let c ← r.cmp a.first b.first
  if c = .eq then .ok (compare a.empty.toNat b.empty.toNat) else .ok c

/-- `split_iterator` with `output_delimiter`, which also has `m_found_delimiter`. -/
structure SplitKeepIt (σ : Type) extends SplitIt σ where
  found : Bool

/-- The constructor (split.cpp:122-130). -/
def splitKeepBegin (r : Fwd σ ρ) (D : Delim σ) (first : σ) : Res (SplitKeepIt σ) := do
  let middle ← D.find first
  let empty ← r.atEnd first
  .ok ⟨⟨first, middle, empty⟩, !(← r.atEnd middle)⟩

/-- The operations of the iterators (split.cpp:132-181, the second branch of `+`). -/
def splitKeep (r : Fwd σ ρ) (D : Delim σ) : Fwd (SplitKeepIt σ) (σ × σ) where
  atEnd it := do .ok ((← r.atEnd it.first) && !it.empty)
  deref it := .ok (it.first, it.middle)
  next it := do
    if it.empty && (← r.atEnd it.first) then .ok { it with empty := false } else
    if it.found then
      let middle ← D.skip it.middle
      .ok ⟨⟨it.middle, middle, ← r.atEnd middle⟩, false⟩
    else
      let middle ← D.find it.middle
      .ok ⟨⟨it.middle, middle, it.empty⟩, !(← r.atEnd middle)⟩
  eq a b := do .ok ((← r.eq a.first b.first) && a.empty == b.empty)

/-! ## What splitting means -/

/-- The pieces of a sequence between the occurrences of the delimiter, searched from left to right: joined with the delimiter they are the
sequence. In a piece together with the delimiter that follows it there is no earlier occurrence of the delimiter, and there is none in the last piece. -/
structure IsSplit (ds xs : List ρ) (pieces : List (List ρ)) : Prop where
  ne : pieces ≠ []
  join : ds.intercalate pieces = xs
  before : ∀ p ∈ pieces.dropLast, ∀ j, j < p.length → ¬ ds <+: (p ++ ds).drop j
  last : ∀ p ∈ pieces.getLast?, ¬ ds <:+: p

theorem intercalate_nil (ds : List ρ) : ds.intercalate [] = [] := by simp [List.intercalate]

theorem intercalate_singleton (ds p : List ρ) : ds.intercalate [p] = p := by simp [List.intercalate]

theorem intercalate_cons (ds p : List ρ) {ps : List (List ρ)} (h : ps ≠ []) : ds.intercalate (p :: ps) = p ++ (ds ++ ds.intercalate ps) := by
  obtain ⟨q, qs, rfl⟩ := List.exists_cons_of_ne_nil h
  simp [List.intercalate]

/-- The position of the first occurrence of the delimiter, or the length. -/
def firstOcc [DecidableEq ρ] (ds : List ρ) : List ρ → Nat
  | [] => 0
  | x :: xs => if ds <+: x :: xs then 0 else firstOcc ds xs + 1

variable [DecidableEq ρ]

theorem firstOcc_le (ds : List ρ) : ∀ xs, firstOcc ds xs ≤ xs.length
  | [] => Nat.le_refl _
  | x :: xs => by
    rw [firstOcc]
    split
    · omega
    · have := firstOcc_le ds xs
      rw [List.length_cons]; omega

theorem firstOcc_prefix (ds : List ρ) : ∀ {xs}, firstOcc ds xs < xs.length → ds <+: xs.drop (firstOcc ds xs)
  | [], h => by simp at h
  | x :: xs, h => by
    rw [firstOcc] at h ⊢
    split
    · assumption
    · rename_i hp
      rw [if_neg hp, List.length_cons] at h
      exact firstOcc_prefix ds (by omega)

theorem firstOcc_before (ds : List ρ) : ∀ {xs : List ρ} {j}, j < firstOcc ds xs → ¬ ds <+: xs.drop j
  | [], j, h => by simp [firstOcc] at h
  | x :: xs, j, h => by
    rw [firstOcc] at h
    split at h
    · omega
    · rename_i hp
      cases j with
      | zero => exact hp
      | succ j => exact firstOcc_before ds (xs := xs) (j := j) (by omega)

omit [DecidableEq ρ] in
theorem IsSplit.single {ds xs : List ρ} (h : ¬ ds <:+: xs) : IsSplit ds xs [xs] :=
  ⟨by simp, intercalate_singleton ds xs, by simp, by simpa using h⟩

omit [DecidableEq ρ] in
theorem IsSplit.cons {ds xs p : List ρ} {ps : List (List ρ)} (h : IsSplit ds xs ps) (hp : ∀ j, j < p.length → ¬ ds <+: (p ++ ds).drop j) :
    IsSplit ds (p ++ (ds ++ xs)) (p :: ps) := by
  refine ⟨by simp, by rw [intercalate_cons ds p h.ne, h.join], ?_, ?_⟩
  · intro q hq
    rw [List.dropLast_cons_of_ne_nil h.ne] at hq
    rcases List.mem_cons.1 hq with rfl | hq
    · exact hp
    · exact h.before q hq
  · rw [List.getLast?_cons]
    intro q hq
    obtain ⟨y, ys, rfl⟩ := List.exists_cons_of_ne_nil h.ne
    refine h.last q ?_
    rw [List.getLast?_cons] at hq ⊢
    simpa using hq

omit [DecidableEq ρ] in
/-- There is only one way to split. -/
theorem IsSplit.unique {ds : List ρ} (hd : ds ≠ []) : ∀ {ps qs : List (List ρ)} {xs : List ρ}, IsSplit ds xs ps → IsSplit ds xs qs → ps = qs
  | [], _, _, h, _ => absurd rfl h.ne
  | _, [], _, _, h => absurd rfl h.ne
  | [p], [q], xs, h, k => by
    have h1 := h.join; have k1 := k.join
    rw [intercalate_singleton] at h1 k1
    rw [h1, k1]
  | [p], q :: q' :: qs, xs, h, k => by
    have h1 := h.join; have k1 := k.join
    rw [intercalate_singleton] at h1
    rw [intercalate_cons _ _ (by simp)] at k1
    exact absurd ⟨q, _, by rw [List.append_assoc, k1, h1]⟩ (h.last p (by simp))
  | p :: p' :: ps, [q], xs, h, k => by
    have h1 := h.join; have k1 := k.join
    rw [intercalate_singleton] at k1
    rw [intercalate_cons _ _ (by simp)] at h1
    exact absurd ⟨p, _, by rw [List.append_assoc, h1, k1]⟩ (k.last q (by simp))
  | p :: p' :: ps, q :: q' :: qs, xs, h, k => by
    have h1 := h.join; have k1 := k.join
    rw [intercalate_cons _ _ (by simp)] at h1 k1
    have hb := h.before p (by simp)
    have kb := k.before q (by simp)
    have key : ∀ {a b ra rb : List ρ}, a ++ (ds ++ ra) = b ++ (ds ++ rb) → (∀ j, j < b.length → ¬ ds <+: (b ++ ds).drop j) → b.length ≤ a.length := by
      intro a b ra rb e hbb
      by_contra hlt
      refine hbb a.length (by omega) ?_
      have e2 : ds <+: (b ++ (ds ++ rb)).drop a.length := by
        rw [← e, List.drop_left]
        exact List.prefix_append _ _
      rw [← List.append_assoc, List.drop_append_of_le_length (by rw [List.length_append]; omega)] at e2
      refine (List.prefix_append_right_inj (l := []) |>.1 ?_)
      rw [List.nil_append, List.nil_append]
      exact List.prefix_of_prefix_length_le e2 (List.prefix_append _ _) (by rw [List.length_drop, List.length_append]; omega)
    have hpq : p.length = q.length := Nat.le_antisymm (key (k1.trans h1.symm) hb) (key (h1.trans k1.symm) kb)
    obtain ⟨rfl, e⟩ := List.append_inj (h1.trans k1.symm) hpq
    have e' := List.append_cancel_left e
    have hs : ∀ {a : List ρ} {as : List (List ρ)}, as ≠ [] → IsSplit ds xs (a :: as) → IsSplit ds (ds.intercalate as) as := by
      intro a as hne h
      refine ⟨hne, rfl, fun p hp => h.before p ?_, fun p hp => h.last p ?_⟩
      · rw [List.dropLast_cons_of_ne_nil hne]; exact List.mem_cons_of_mem _ hp
      · obtain ⟨y, ys, rfl⟩ := List.exists_cons_of_ne_nil hne
        simpa using hp
    have h2 := hs (by simp) h
    have k2 := hs (by simp) k
    rw [e'] at h2
    rw [IsSplit.unique hd h2 k2]

omit [DecidableEq ρ] in
/-- For a delimiter that is one element the pieces are the ones without it that joined are the sequence. -/
theorem isSplit_singleton {d : ρ} {xs : List ρ} {ps : List (List ρ)} :
    IsSplit [d] xs ps ↔ ps ≠ [] ∧ [d].intercalate ps = xs ∧ ∀ p ∈ ps, d ∉ p := by
  have hlast : ∀ p : List ρ, ¬ [d] <:+: p ↔ d ∉ p := by
    intro p
    rw [not_iff_not]
    constructor
    · rintro ⟨a, b, rfl⟩; simp
    · intro h
      obtain ⟨a, b, rfl⟩ := List.append_of_mem h
      exact ⟨a, b, by simp⟩
  have hbefore : ∀ p : List ρ, (∀ j, j < p.length → ¬ [d] <+: (p ++ [d]).drop j) ↔ d ∉ p := by
    intro p
    constructor
    · intro h hd
      obtain ⟨a, b, rfl⟩ := List.append_of_mem hd
      refine h a.length (by simp) ?_
      rw [List.append_assoc, List.drop_left]
      simp
    · rintro h j hj ⟨t, e⟩
      rw [List.drop_append_of_le_length (by omega), List.drop_eq_getElem_cons hj] at e
      have : d = p[j] := by
        rw [List.singleton_append, List.cons_append] at e
        exact (List.cons.inj e).1
      exact h (this ▸ List.getElem_mem hj)
  constructor
  · intro h
    refine ⟨h.ne, h.join, ?_⟩
    intro p hp
    rcases List.eq_nil_or_concat ps with e | ⟨qs, q, e⟩
    · exact absurd e h.ne
    · rw [List.concat_eq_append] at e
      subst e
      rcases List.mem_append.1 hp with hp | hp
      · exact (hbefore p).1 (h.before p (by simpa using hp))
      · rw [List.mem_singleton] at hp
        subst hp
        exact (hlast p).1 (h.last p (by simp))
  · rintro ⟨h1, h2, h3⟩
    exact ⟨h1, h2, fun p hp => (hbefore p).2 (h3 p (List.dropLast_subset _ hp)), fun p hp => (hlast p).2 (h3 p (List.mem_of_getLast? hp))⟩

/-! ## What the delimiters find -/

/-- The delimiter `ds` is found and skipped in the range with these positions. -/
structure Delim.Lawful (D : Delim σ) (pos : Nat → σ) (ds xs : List ρ) : Prop where
  find : ∀ i, i ≤ xs.length → D.find (pos i) = .ok (pos (i + firstOcc ds (xs.drop i)))
  skip : ∀ i, i < xs.length → ds <+: xs.drop i → D.skip (pos i) = .ok (pos (i + ds.length))

theorem firstOcc_singleton (d : ρ) : ∀ xs : List ρ, firstOcc [d] xs = matchIdx (fun x => decide (x = d)) xs 0
  | [] => rfl
  | x :: xs => by
    rw [firstOcc, matchIdx, firstOcc_singleton d xs]
    by_cases h : x = d
    · subst h; simp
    · rw [if_neg (by simpa [List.cons_prefix_cons] using fun e => h e.symm), if_neg (by simpa using h)]

theorem singleDelim_lawful {r : Fwd σ ρ} {pos : Nat → σ} {xs : List ρ} (h : Positions r pos xs) {N : Nat} (hN : xs.length < N) (d : ρ) :
    (singleDelim r N d).Lawful pos [d] xs := by
  constructor
  · intro i hi
    rw [firstOcc_singleton]
    exact h.findIfR (xs.length - i) i N (by omega) (by omega)
  · intro i hi _
    exact h.next i hi

theorem matchHere_spec {r : Fwd σ ρ} {pos : Nat → σ} {xs : List ρ} (h : Positions r pos xs) : ∀ (ds : List ρ) {i : Nat}, i ≤ xs.length →
    matchHere r.toRng ds (pos i) = .ok (decide (ds <+: xs.drop i))
  | [], i, hi => by simp [matchHere]
  | d :: ds, i, hi => by
    rw [matchHere, h.atEnd i hi, Res.ok_bind]
    by_cases he : i = xs.length
    · subst he; simp
    · rw [if_neg (by simpa using he), h.deref i (by omega), Res.ok_bind, h.next i (by omega), List.drop_eq_getElem_cons (l := xs) (i := i) (by omega)]
      by_cases hd : xs[i]'(by omega) = d
      · rw [if_pos hd, Res.ok_bind, matchHere_spec h ds (by omega)]
        simp [List.cons_prefix_cons, hd]
      · rw [if_neg hd, Res.ok.injEq, eq_comm, decide_eq_false_iff_not, List.cons_prefix_cons]
        exact fun e => hd e.1.symm

theorem stdSearch_spec {r : Fwd σ ρ} {pos : Nat → σ} {xs ds : List ρ} (h : Positions r pos xs) : ∀ (n i N : Nat), i + n = xs.length → n < N →
    stdSearch r.toRng ds N (pos i) = .ok (pos (i + firstOcc ds (xs.drop i)))
  | _, _, 0, _, hN => by omega
  | 0, i, N + 1, hi, _ => by
    rw [stdSearch, matchHere_spec h ds (by omega), Res.ok_bind, h.atEnd i (by omega), Res.ok_bind, List.drop_of_length_le (by omega), firstOcc]
    by_cases hp : ds <+: []
    · rw [if_pos (by simpa using hp)]; rfl
    · rw [if_neg (by simpa using hp), if_pos (by simpa using hi)]; rfl
  | n + 1, i, N + 1, hi, hN => by
    have e := List.drop_eq_getElem_cons (l := xs) (i := i) (by omega)
    rw [stdSearch, matchHere_spec h ds (by omega), Res.ok_bind, h.atEnd i (by omega), Res.ok_bind, h.next i (by omega), Res.ok_bind, e, firstOcc, ← e]
    by_cases hp : ds <+: xs.drop i
    · rw [if_pos (by simpa using hp), if_pos hp]; rfl
    · rw [if_neg (by simpa using hp), if_neg hp, if_neg (by simp; omega), stdSearch_spec h n (i + 1) N (by omega) (by omega)]
      congr 2; omega

omit [DecidableEq ρ] in
theorem Positions.advance {r : Fwd σ ρ} {pos : Nat → σ} {xs : List ρ} (h : Positions r pos xs) : ∀ (n i : Nat), i + n ≤ xs.length →
    Views.advance r.toRng n (pos i) = .ok (pos (i + n))
  | 0, i, _ => rfl
  | n + 1, i, hi => by
    rw [Views.advance, h.next i (by omega), Res.ok_bind, h.advance n (i + 1) (by omega)]
    congr 2; omega

theorem rangeDelim_lawful {r : Fwd σ ρ} {pos : Nat → σ} {xs : List ρ} (h : Positions r pos xs) {N : Nat} (hN : xs.length < N) (ds : List ρ) :
    (rangeDelim r N ds).Lawful pos ds xs := by
  constructor
  · intro i hi
    exact stdSearch_spec h (xs.length - i) i N (by omega) (by omega)
  · intro i hi hp
    have := hp.length_le
    rw [List.length_drop] at this
    exact h.advance _ _ (by omega)

/-! ## Visiting with positions -/

omit [DecidableEq ρ] in
/-- The range visits the elements at some of the states `st j, ..., st e`, in this order. -/
def VisitsAt {τ π : Type} (r : Fwd τ π) (st : Nat → τ) (e : Nat) : Nat → List π → Prop
  | j, [] => j = e ∧ r.atEnd (st j) = .ok true
  | j, x :: xs => j < e ∧ r.atEnd (st j) = .ok false ∧ r.deref (st j) = .ok x ∧ ∃ j', j < j' ∧ r.next (st j) = .ok (st j') ∧ VisitsAt r st e j' xs

theorem VisitsAt.indices {τ π : Type} {r : Fwd τ π} {st : Nat → τ} {e : Nat} : ∀ {xs : List π} {j : Nat}, VisitsAt r st e j xs →
    ∃ idx : Nat → Nat, idx 0 = j ∧ (∀ k, k ≤ xs.length → j ≤ idx k ∧ idx k ≤ e) ∧ (∀ k l, k < l → l ≤ xs.length → idx k < idx l) ∧
      (∀ k, k ≤ xs.length → r.atEnd (st (idx k)) = .ok (decide (k = xs.length))) ∧
      (∀ k (h : k < xs.length), r.deref (st (idx k)) = .ok xs[k]) ∧ ∀ k, k < xs.length → r.next (st (idx k)) = .ok (st (idx (k + 1)))
  | [], j, ⟨h1, h2⟩ => by
    refine ⟨fun _ => j, rfl, fun k _ => ⟨Nat.le_refl _, Nat.le_of_eq h1⟩, fun k l hk hl => ?_, fun k hk => ?_, fun k hk => ?_, fun k hk => ?_⟩
    · rw [List.length_nil] at hl; omega
    · rw [List.length_nil] at hk ⊢; rw [h2, decide_eq_true (by omega)]
    · simp at hk
    · simp at hk
  | x :: xs, j, ⟨h0, h1, h2, j', hj, h3, h4⟩ => by
    obtain ⟨idx, i0, i1, i2, i3, i4, i5⟩ := h4.indices
    refine ⟨fun k => if k = 0 then j else idx (k - 1), rfl, ?_, ?_, ?_, ?_, ?_⟩
    · rintro (_ | k) hk
      · simp only [if_true]; omega
      · rw [List.length_cons] at hk
        have := i1 k (by omega)
        simp only [Nat.add_one_ne_zero, if_false, Nat.add_sub_cancel]; omega
    · rintro (_ | k) (_ | l) hk hl
      · omega
      · rw [List.length_cons] at hl
        have := i1 l (by omega)
        simp only [Nat.add_one_ne_zero, if_true, if_false, Nat.add_sub_cancel]; omega
      · omega
      · rw [List.length_cons] at hl
        simp only [Nat.add_one_ne_zero, if_false, Nat.add_sub_cancel]
        exact i2 k l (by omega) (by omega)
    · rintro (_ | k) hk
      · simp only [if_true, h1, Res.ok.injEq, List.length_cons, eq_comm (a := false), decide_eq_false_iff_not]; omega
      · rw [List.length_cons] at hk ⊢
        simp only [Nat.add_one_ne_zero, if_false, Nat.add_sub_cancel, i3 k (by omega), Nat.add_right_cancel_iff]
    · rintro (_ | k) hk
      · simpa using h2
      · simpa using i4 k (by simpa using hk)
    · rintro (_ | k) hk
      · simp only [if_true, Nat.zero_add, Nat.one_ne_zero, if_false, Nat.sub_self, i0, h3]
      · simpa using i5 k (by simpa using hk)

theorem VisitsAt.positions {τ π : Type} {r : Fwd τ π} {st : Nat → τ} {e j : Nat} {xs : List π} (h : VisitsAt r st e j xs)
    (heq : ∀ a b, a ≤ e → b ≤ e → r.eq (st a) (st b) = .ok (decide (a = b))) : ∃ pos, pos 0 = st j ∧ Positions r pos xs := by
  obtain ⟨idx, i0, i1, i2, i3, i4, i5⟩ := h.indices
  refine ⟨fun k => st (idx k), congrArg st i0, i3, i4, i5, fun k l hk hl => ?_⟩
  rw [heq _ _ (i1 k hk).2 (i1 l hl).2, Res.ok.injEq, decide_eq_decide]
  constructor
  · intro e
    rcases Nat.lt_trichotomy k l with h | h | h
    · have := i2 k l h hl; omega
    · exact h
    · have := i2 l k h hk; omega
  · rintro rfl; rfl

/-! ## What the split ranges visit -/

/-- The iterator whose piece begins at `i`, and the end. -/
def splitAt (ds xs : List ρ) (pos : Nat → σ) (i : Nat) : SplitIt σ :=
  if i ≤ xs.length then ⟨pos i, pos (i + firstOcc ds (xs.drop i)), decide (i = xs.length)⟩ else ⟨pos xs.length, pos xs.length, false⟩

theorem take_append_of_prefix {ds xs : List ρ} {k : Nat} (h : ds <+: xs.drop k) : xs = xs.take k ++ (ds ++ xs.drop (k + ds.length)) := by
  obtain ⟨t, e⟩ := h
  have : xs.drop (k + ds.length) = t := by rw [← List.drop_drop, ← e, List.drop_left]
  rw [this, e, List.take_append_drop]

theorem before_of_firstOcc {ds xs : List ρ} (h : ds <+: xs.drop (firstOcc ds xs)) : ∀ j, j < (xs.take (firstOcc ds xs)).length →
    ¬ ds <+: (xs.take (firstOcc ds xs) ++ ds).drop j := by
  intro j hj hp
  rw [List.length_take] at hj
  refine firstOcc_before ds (xs := xs) (j := j) (by omega) ?_
  have e := take_append_of_prefix h
  have : xs.take (firstOcc ds xs) ++ ds <+: xs := by
    rw (occs := .pos [3]) [e]
    rw [← List.append_assoc]
    exact List.prefix_append _ _
  obtain ⟨t, ht⟩ := this
  refine hp.trans ⟨t, ?_⟩
  rw [← List.drop_append_of_le_length (by rw [List.length_append, List.length_take]; omega), ht]

theorem not_infix_of_firstOcc {ds xs : List ρ} (hd : ds ≠ []) (h : firstOcc ds xs = xs.length) : ¬ ds <:+: xs := by
  rintro ⟨s, t, e⟩
  have h1 : 0 < ds.length := List.length_pos_of_ne_nil hd
  have h2 := congrArg List.length e
  rw [List.length_append, List.length_append] at h2
  refine firstOcc_before ds (xs := xs) (j := s.length) (by omega) ?_
  rw [← e, List.append_assoc, List.drop_left]
  exact List.prefix_append _ _

theorem split_from {r : Fwd σ ρ} {pos : Nat → σ} {ds xs : List ρ} {D : Delim σ} (h : Positions r pos xs) (hD : D.Lawful pos ds xs) (hd : ds ≠ []) :
    ∀ (n i : Nat), xs.length - i ≤ n → i ≤ xs.length → ∃ parts pieces, VisitsAt (split r D) (splitAt ds xs pos) (xs.length + 1) i parts ∧
      IsSplit ds (xs.drop i) pieces ∧ List.Forall₂ (fun q c => Visits (subrange r q.2).toRng q.1 c) parts pieces
  | n, i, hn, hi => by
    have hl : (xs.drop i).length = xs.length - i := List.length_drop
    have hd0 : 0 < ds.length := List.length_pos_of_ne_nil hd
    obtain ⟨k, hk⟩ : ∃ k, firstOcc ds (xs.drop i) = k := ⟨_, rfl⟩
    have hkl := firstOcc_le ds (xs.drop i)
    rw [hk, hl] at hkl
    have hs : splitAt ds xs pos i = ⟨pos i, pos (i + k), decide (i = xs.length)⟩ := by rw [splitAt, if_pos hi, hk]
    have hat : (split r D).atEnd (splitAt ds xs pos i) = .ok false := by
      rw [hs, split]
      dsimp only
      rw [h.atEnd i hi, Res.ok_bind]
      by_cases hx : i = xs.length <;> simp [hx]
    have hde : (split r D).deref (splitAt ds xs pos i) = .ok (pos i, pos (i + k)) := by rw [hs, split]
    have hv := (h.subrange (i := i) (j := i + k) (by omega) (by omega)).visits
    rw [Nat.add_zero, Nat.add_sub_cancel_left] at hv
    by_cases he : i + k = xs.length
    · refine ⟨[(pos i, pos (i + k))], [xs.drop i], ⟨by omega, hat, hde, xs.length + 1, by omega, ?_, rfl, ?_⟩, ?_, .cons ?_ .nil⟩
      · rw [hs, split]
        dsimp only
        rw [h.atEnd _ (by omega), Res.ok_bind, if_pos (by simpa using he), splitAt, if_neg (by omega), he]
      · rw [splitAt, if_neg (by omega), split]
        dsimp only
        rw [h.atEnd _ (Nat.le_refl _), Res.ok_bind]
        simp
      · exact .single (not_infix_of_firstOcc hd (by omega))
      · rw [List.take_of_length_le (by omega)] at hv
        exact hv
    · have hp : ds <+: (xs.drop i).drop k := by rw [← hk]; exact firstOcc_prefix ds (by omega)
      have hpl := hp.length_le
      rw [List.drop_drop, List.length_drop] at hpl
      obtain ⟨n, rfl⟩ : ∃ m, n = m + 1 := ⟨n - 1, by omega⟩
      obtain ⟨parts, pieces, v, s, f⟩ := split_from h hD hd n (i + k + ds.length) (by omega) (by omega)
      refine ⟨(pos i, pos (i + k)) :: parts, (xs.drop i).take k :: pieces, ⟨by omega, hat, hde, i + k + ds.length, by omega, ?_, v⟩, ?_, .cons hv f⟩
      · rw [hs, split]
        dsimp only
        rw [h.atEnd _ (by omega), Res.ok_bind, if_neg (by simpa using he), if_neg (by simp; omega), hD.skip _ (by omega) (by rwa [List.drop_drop] at hp), Res.ok_bind,
          h.atEnd _ (by omega), Res.ok_bind, hD.find _ (by omega), Res.ok_bind, splitAt, if_pos (by omega)]
      · have e := take_append_of_prefix hp
        rw [List.drop_drop, ← Nat.add_assoc] at e
        have hb := before_of_firstOcc (ds := ds) (xs := xs.drop i) (by rw [hk]; exact hp)
        rw [hk] at hb
        have := s.cons hb
        rwa [← e] at this

/-- Splitting gives the pieces: the iterators are the ones of a forward range of subranges, and the subranges have the elements of the pieces. This holds
for every delimiter that is searched and skipped as it should be; see `singleDelim_lawful` and `rangeDelim_lawful` for the two kinds. -/
theorem split_positions {r : Fwd σ ρ} {pos : Nat → σ} {ds xs : List ρ} {D : Delim σ} (h : Positions r pos xs) (hD : D.Lawful pos ds xs) (hd : ds ≠ []) :
    ∃ pos' parts pieces, splitBegin r D (pos 0) = .ok (pos' 0) ∧ Positions (split r D) pos' parts ∧ IsSplit ds xs pieces ∧
      List.Forall₂ (fun q c => Visits (subrange r q.2).toRng q.1 c) parts pieces := by
  obtain ⟨parts, pieces, v, s, f⟩ := split_from h hD hd xs.length 0 (by omega) (by omega)
  obtain ⟨pos', e, hp⟩ := v.positions fun a b ha hb => by
    have hx : ∀ a, a ≤ xs.length + 1 → ∃ m, splitAt ds xs pos a = ⟨pos (min a xs.length), m, decide (a = xs.length)⟩ := by
      intro a ha
      rw [splitAt]
      split
      · exact ⟨_, by rw [Nat.min_eq_left (by assumption)]⟩
      · exact ⟨_, by rw [Nat.min_eq_right (by omega), decide_eq_false (by omega)]⟩
    obtain ⟨m, e⟩ := hx a ha
    obtain ⟨m', e'⟩ := hx b hb
    rw [e, e', split]
    dsimp only
    rw [h.eq _ _ (by omega) (by omega), Res.ok_bind, Res.ok.injEq]
    by_cases h1 : a = xs.length <;> by_cases h2 : b = xs.length <;> simp [h1, h2, ← Bool.decide_and] <;> omega
  refine ⟨pos', parts, pieces, ?_, hp, by simpa using s, f⟩
  rw [e, splitBegin, hD.find 0 (by omega), Res.ok_bind, h.atEnd 0 (by omega), Res.ok_bind, splitAt, if_pos (by omega)]

/-- `split` with one element as the delimiter. -/
theorem C48_split {r : Fwd σ ρ} {pos : Nat → σ} {xs : List ρ} (h : Positions r pos xs) {N : Nat} (hN : xs.length < N) (d : ρ) :
    ∃ pos' parts pieces, splitBegin r (singleDelim r N d) (pos 0) = .ok (pos' 0) ∧ Positions (split r (singleDelim r N d)) pos' parts ∧
      (pieces ≠ [] ∧ [d].intercalate pieces = xs ∧ ∀ p ∈ pieces, d ∉ p) ∧
      List.Forall₂ (fun q c => Visits (subrange r q.2).toRng q.1 c) parts pieces := by
  obtain ⟨pos', parts, pieces, h1, h2, h3, h4⟩ := split_positions h (singleDelim_lawful h hN d) (by simp)
  exact ⟨pos', parts, pieces, h1, h2, isSplit_singleton.1 h3, h4⟩

/-- Splitting what has been joined gives the pieces back. -/
theorem C48_split_of_join {r : Fwd σ ρ} {pos : Nat → σ} {d : ρ} {pieces : List (List ρ)} (hne : pieces ≠ []) (hp : ∀ p ∈ pieces, d ∉ p)
    (h : Positions r pos ([d].intercalate pieces)) {N : Nat} (hN : ([d].intercalate pieces).length < N) :
    ∃ pos' parts, splitBegin r (singleDelim r N d) (pos 0) = .ok (pos' 0) ∧ Positions (split r (singleDelim r N d)) pos' parts ∧
      List.Forall₂ (fun q c => Visits (subrange r q.2).toRng q.1 c) parts pieces := by
  obtain ⟨pos', parts, pieces', h1, h2, h3, h4⟩ := split_positions h (singleDelim_lawful h hN d) (by simp)
  rw [h3.unique (by simp) (isSplit_singleton.2 ⟨hne, rfl, hp⟩)] at h4
  exact ⟨pos', parts, h1, h2, h4⟩

/-- `split_range`: the delimiter is a range that is not empty. -/
theorem C48_split_range {r : Fwd σ ρ} {pos : Nat → σ} {xs ds : List ρ} (h : Positions r pos xs) {N : Nat} (hN : xs.length < N) (hd : ds ≠ []) :
    ∃ pos' parts pieces, splitBegin r (rangeDelim r N ds) (pos 0) = .ok (pos' 0) ∧ Positions (split r (rangeDelim r N ds)) pos' parts ∧
      IsSplit ds xs pieces ∧ List.Forall₂ (fun q c => Visits (subrange r q.2).toRng q.1 c) parts pieces :=
  split_positions h (rangeDelim_lawful h hN ds) hd

/-! ## Keeping the delimiters -/

omit [DecidableEq ρ] in
theorem intersperse_cons (ds p : List ρ) {ps : List (List ρ)} (h : ps ≠ []) : List.intersperse ds (p :: ps) = p :: ds :: List.intersperse ds ps := by
  obtain ⟨q, qs, rfl⟩ := List.exists_cons_of_ne_nil h
  rfl

/-- The iterator whose piece begins at `i`. -/
def splitKeepAt (ds xs : List ρ) (pos : Nat → σ) (i : Nat) : SplitKeepIt σ :=
  ⟨⟨pos i, pos (i + firstOcc ds (xs.drop i)), decide (i = xs.length)⟩, decide (i + firstOcc ds (xs.drop i) ≠ xs.length)⟩

theorem splitKeep_from {r : Fwd σ ρ} {pos : Nat → σ} {ds xs : List ρ} {D : Delim σ} (h : Positions r pos xs) (hD : D.Lawful pos ds xs) (hd : ds ≠ []) :
    ∀ (n i : Nat), xs.length - i ≤ n → i ≤ xs.length → ∃ parts pieces, Visits (splitKeep r D).toRng (splitKeepAt ds xs pos i) parts ∧
      IsSplit ds (xs.drop i) pieces ∧ List.Forall₂ (fun q c => Visits (subrange r q.2).toRng q.1 c) parts (pieces.intersperse ds)
  | n, i, hn, hi => by
    have hl : (xs.drop i).length = xs.length - i := List.length_drop
    have hd0 : 0 < ds.length := List.length_pos_of_ne_nil hd
    obtain ⟨k, hk⟩ : ∃ k, firstOcc ds (xs.drop i) = k := ⟨_, rfl⟩
    have hkl := firstOcc_le ds (xs.drop i)
    rw [hk, hl] at hkl
    have hs : splitKeepAt ds xs pos i = ⟨⟨pos i, pos (i + k), decide (i = xs.length)⟩, decide (i + k ≠ xs.length)⟩ := by rw [splitKeepAt, hk]
    have hat : (splitKeep r D).atEnd (splitKeepAt ds xs pos i) = .ok false := by
      rw [hs, splitKeep]
      dsimp only
      rw [h.atEnd i hi, Res.ok_bind]
      by_cases hx : i = xs.length <;> simp [hx]
    have hde : (splitKeep r D).deref (splitKeepAt ds xs pos i) = .ok (pos i, pos (i + k)) := by rw [hs, splitKeep]
    have hv := (h.subrange (i := i) (j := i + k) (by omega) (by omega)).visits
    rw [Nat.add_zero, Nat.add_sub_cancel_left] at hv
    by_cases he : i + k = xs.length
    · refine ⟨[(pos i, pos (i + k))], [xs.drop i], ⟨hat, hde, ⟨⟨pos xs.length, pos xs.length, false⟩, false⟩, ?_, ?_⟩, ?_, .cons ?_ .nil⟩
      · rw [hs, splitKeep]
        dsimp only
        rw [h.atEnd _ (by omega), Res.ok_bind]
        by_cases hx : i = xs.length
        · rw [if_pos (by simp [hx])]
          have : k = 0 := by omega
          subst this
          subst hx
          simp
        · rw [if_neg (by simp [hx]), if_neg (by simp [he]), hD.find _ (by omega), Res.ok_bind, he, List.drop_length, firstOcc, Nat.add_zero,
            h.atEnd _ (Nat.le_refl _), Res.ok_bind]
          simp [hx]
      · rw [Visits, splitKeep]
        dsimp only
        rw [h.atEnd _ (Nat.le_refl _), Res.ok_bind]
        simp
      · exact .single (not_infix_of_firstOcc hd (by omega))
      · rw [List.take_of_length_le (by omega)] at hv
        exact hv
    · have hp : ds <+: (xs.drop i).drop k := by rw [← hk]; exact firstOcc_prefix ds (by omega)
      have hp' : ds <+: xs.drop (i + k) := by rwa [List.drop_drop] at hp
      have hpl := hp'.length_le
      rw [List.length_drop] at hpl
      obtain ⟨n, rfl⟩ : ∃ m, n = m + 1 := ⟨n - 1, by omega⟩
      obtain ⟨parts, pieces, v, s, f⟩ := splitKeep_from h hD hd n (i + k + ds.length) (by omega) (by omega)
      have hv2 := (h.subrange (i := i + k) (j := i + k + ds.length) (by omega) (by omega)).visits
      rw [Nat.add_zero, Nat.add_sub_cancel_left, ← List.prefix_iff_eq_take.1 hp'] at hv2
      refine ⟨(pos i, pos (i + k)) :: (pos (i + k), pos (i + k + ds.length)) :: parts, (xs.drop i).take k :: pieces,
        ⟨hat, hde, ⟨⟨pos (i + k), pos (i + k + ds.length), decide (i + k + ds.length = xs.length)⟩, false⟩, ?_, ?_, rfl, _, ?_, v⟩, ?_, ?_⟩
      · rw [hs, splitKeep]
        dsimp only
        rw [h.atEnd _ (by omega), Res.ok_bind, if_neg (by simp; omega), if_pos (by simpa using he), hD.skip _ (by omega) hp', Res.ok_bind, h.atEnd _ (by omega), Res.ok_bind]
      · rw [splitKeep]
        dsimp only
        rw [h.atEnd _ (by omega), Res.ok_bind, decide_eq_false he]
        rfl
      · rw [splitKeep]
        dsimp only
        rw [h.atEnd _ (by omega), Res.ok_bind, if_neg (by simp [he]), if_neg (by simp), hD.find _ (by omega), Res.ok_bind, h.atEnd _ (by
          have := firstOcc_le ds (xs.drop (i + k + ds.length))
          rw [List.length_drop] at this
          omega), Res.ok_bind, splitKeepAt]
        simp
      · have e := take_append_of_prefix hp
        rw [List.drop_drop, ← Nat.add_assoc] at e
        have hb := before_of_firstOcc (ds := ds) (xs := xs.drop i) (by rw [hk]; exact hp)
        rw [hk] at hb
        have := s.cons hb
        rwa [← e] at this
      · rw [intersperse_cons _ _ s.ne]
        exact .cons hv (.cons hv2 f)

/-- Splitting and keeping the delimiters gives the pieces with the delimiter between them. -/
theorem splitKeep_visits {r : Fwd σ ρ} {pos : Nat → σ} {ds xs : List ρ} {D : Delim σ} (h : Positions r pos xs) (hD : D.Lawful pos ds xs) (hd : ds ≠ []) :
    ∃ s parts pieces, splitKeepBegin r D (pos 0) = .ok s ∧ Visits (splitKeep r D).toRng s parts ∧ IsSplit ds xs pieces ∧
      List.Forall₂ (fun q c => Visits (subrange r q.2).toRng q.1 c) parts (pieces.intersperse ds) := by
  obtain ⟨parts, pieces, v, s, f⟩ := splitKeep_from h hD hd xs.length 0 (by omega) (by omega)
  refine ⟨_, parts, pieces, ?_, v, by simpa using s, f⟩
  have hle := firstOcc_le ds (xs.drop 0)
  rw [List.length_drop] at hle
  rw [splitKeepBegin, hD.find 0 (by omega), Res.ok_bind, h.atEnd 0 (by omega), Res.ok_bind, h.atEnd _ (by omega), Res.ok_bind, splitKeepAt]
  simp

/-- `split_keep_delimiters`. -/
theorem C48_split_keep_delimiters {r : Fwd σ ρ} {pos : Nat → σ} {xs : List ρ} (h : Positions r pos xs) {N : Nat} (hN : xs.length < N) (d : ρ) :
    ∃ s parts pieces, splitKeepBegin r (singleDelim r N d) (pos 0) = .ok s ∧ Visits (splitKeep r (singleDelim r N d)).toRng s parts ∧
      (pieces ≠ [] ∧ [d].intercalate pieces = xs ∧ ∀ p ∈ pieces, d ∉ p) ∧
      List.Forall₂ (fun q c => Visits (subrange r q.2).toRng q.1 c) parts (pieces.intersperse [d]) := by
  obtain ⟨s, parts, pieces, h1, h2, h3, h4⟩ := splitKeep_visits h (singleDelim_lawful h hN d) (by simp)
  exact ⟨s, parts, pieces, h1, h2, isSplit_singleton.1 h3, h4⟩

/-- `split_range_keep_delimiters`. -/
theorem C48_split_range_keep_delimiters {r : Fwd σ ρ} {pos : Nat → σ} {xs ds : List ρ} (h : Positions r pos xs) {N : Nat} (hN : xs.length < N) (hd : ds ≠ []) :
    ∃ s parts pieces, splitKeepBegin r (rangeDelim r N ds) (pos 0) = .ok s ∧ Visits (splitKeep r (rangeDelim r N ds)).toRng s parts ∧
      IsSplit ds xs pieces ∧ List.Forall₂ (fun q c => Visits (subrange r q.2).toRng q.1 c) parts (pieces.intersperse ds) :=
  splitKeep_visits h (rangeDelim_lawful h hN ds) hd

/-! ## What does not hold -/

/-- A text: the delimiter is 0. -/
def exText : List Nat → Mem Nat := fun xs a => xs[a]?

/-- Two iterators of the same split range that keeps delimiters can compare equal though they are different positions: if the first piece is empty, as for
"|a" (here [0, 1]), the begin and the next iterator are equal and dereference to different subranges. -/
theorem C48_keep_delimiters_equality_violated :
    let r := (memRange (exText [0, 1]) 0 2).toFwd
    let D := singleDelim r 3 0
    ∃ a b, splitKeepBegin r D 0 = .ok a ∧ (splitKeep r D).next a = .ok b ∧ (splitKeep r D).eq a b = .ok true ∧
      (splitKeep r D).deref a = .ok (0, 0) ∧ (splitKeep r D).deref b = .ok (0, 1) :=
  ⟨⟨⟨0, 0, false⟩, true⟩, ⟨⟨0, 1, false⟩, false⟩, rfl, rfl, rfl, rfl, rfl⟩

/-- The order of split iterators is not the order of the positions: the last piece of a text that ends in the delimiter, as of "|" (here [0]), is greater
than the end. -/
theorem C48_order_violated :
    let r := memRange (exText [0]) 0 1
    let D := singleDelim r.toFwd 2 0
    ∃ a b c, splitBegin r.toFwd D 0 = .ok a ∧ (split r.toFwd D).next a = .ok b ∧ (split r.toFwd D).next b = .ok c ∧ (split r.toFwd D).atEnd c = .ok true ∧
      splitCmp r b c = .ok .gt :=
  ⟨⟨0, 0, false⟩, ⟨1, 1, true⟩, ⟨1, 1, false⟩, rfl, rfl, rfl, rfl, rfl⟩

/-! ## Examples -/

example : ∃ s, splitBegin (memRange (exText [7, 0, 8, 9, 0]) 0 5).toFwd (singleDelim (memRange (exText [7, 0, 8, 9, 0]) 0 5).toFwd 6 0) 0 = .ok s ∧
    forEach (split (memRange (exText [7, 0, 8, 9, 0]) 0 5).toFwd (singleDelim (memRange (exText [7, 0, 8, 9, 0]) 0 5).toFwd 6 0)).toRng 9 s =
      some (.ok [(0, 1), (2, 4), (5, 5)]) := ⟨_, rfl, by decide +kernel⟩

example : ∃ s, splitKeepBegin (memRange (exText [1, 1, 1, 2]) 0 4).toFwd (rangeDelim (memRange (exText [1, 1, 1, 2]) 0 4).toFwd 6 [1, 1]) 0 = .ok s ∧
    forEach (splitKeep (memRange (exText [1, 1, 1, 2]) 0 4).toFwd (rangeDelim (memRange (exText [1, 1, 1, 2]) 0 4).toFwd 6 [1, 1])).toRng 9 s =
      some (.ok [(0, 0), (0, 2), (2, 4)]) := ⟨_, rfl, by decide +kernel⟩

example : IsSplit [1, 1] [1, 1, 1, 2] [[], [1, 2]] := by
  refine ⟨by simp, rfl, ?_, ?_⟩
  · intro p hp j hj
    have : p = [] := by simpa using hp
    subst this
    simp at hj
  · intro p hp
    have : p = [1, 2] := by simpa using hp.symm
    subst this
    decide

example : IsSplit [0] [7, 0, 8, 9, 0] [[7], [8, 9], []] := isSplit_singleton.2 ⟨by simp, rfl, by simp⟩

end Verif.Views
