import Verif.Views.Throwing

/-!
# Splitting ranges with comparisons that throw (property C116)

Models /repo/source/containers/algorithms/split.cpp for views whose functions, and comparisons with the delimiter, may throw.
-/

namespace Verif.Views.Calling

variable {τ σ ρ : Type}

/-- `split_iterator::find_from_first` with `single_element_delimiter` (`algorithms/split.cpp` 70-76, 183-185; `algorithms/find.cpp` 26-34, 94-96), see `singleDelim`:
`isDelim` is the comparison of an element with the delimiter. -/
def splitFindC (r : RngC τ σ ρ) (isDelim : Fn τ ρ Bool) (N : Nat) (first : σ) : Act τ σ := findIfC r isDelim N first

/-- The constructor (`algorithms/split.cpp` 122-130), see `splitBegin`. -/
def splitBeginC (r : RngC τ σ ρ) (isDelim : Fn τ ρ Bool) (N : Nat) (first : σ) : Act τ (SplitIt σ) := do
  let middle ← splitFindC r isDelim N first
  let empty ← r.atEnd first
  pure ⟨first, middle, empty⟩

/-- The operations of the iterators of `split` (`algorithms/split.cpp` 77-80, 132-145, 160-161, 179-181), see `split`. -/
def splitC (r : RngC τ σ ρ) (isDelim : Fn τ ρ Bool) (N : Nat) : RngC τ (SplitIt σ) (σ × σ) where
  atEnd it := do
    if ← r.atEnd it.first then pure (!it.empty) else pure false
  deref it := pure (it.first, it.middle)
  next it := do
    if ← r.atEnd it.middle then pure ⟨it.middle, it.middle, false⟩ else
    if it.empty then .ub else
    let first ← r.next it.middle
    let empty ← r.atEnd first
    let middle ← splitFindC r isDelim N first
    pure ⟨first, middle, empty⟩

/-- The constructor (`algorithms/split.cpp` 122-130) with `output_delimiter`, see `splitKeepBegin`. -/
def splitKeepBeginC (r : RngC τ σ ρ) (isDelim : Fn τ ρ Bool) (N : Nat) (first : σ) : Act τ (SplitKeepIt σ) := do
  let middle ← splitFindC r isDelim N first
  let empty ← r.atEnd first
  let stop ← r.atEnd middle
  pure ⟨⟨first, middle, empty⟩, !stop⟩

/-- The operations of the iterators of `split_keep_delimiters` (`algorithms/split.cpp` 77-80, 132-135, 146-161, 179-181), see `splitKeep`. -/
def splitKeepC (r : RngC τ σ ρ) (isDelim : Fn τ ρ Bool) (N : Nat) : RngC τ (SplitKeepIt σ) (σ × σ) where
  atEnd it := do
    if ← r.atEnd it.first then pure (!it.empty) else pure false
  deref it := pure (it.first, it.middle)
  next it := do
    let trailing ← (if it.empty then r.atEnd it.first else pure false)
    if trailing then pure { it with empty := false } else
    if it.found then do
      let middle ← r.next it.middle
      let empty ← r.atEnd middle
      pure ⟨⟨it.middle, middle, empty⟩, false⟩
    else do
      let middle ← splitFindC r isDelim N it.middle
      let stop ← r.atEnd middle
      pure ⟨⟨it.middle, middle, it.empty⟩, !stop⟩

/-! ## Specification -/

/-- The pieces with the delimiters between them: no piece has a delimiter, and each delimiter is a part of its own. -/
inductive IsKept (p : ρ → Bool) : List ρ → List (List ρ) → Prop
  | last {xs : List ρ} : (∀ x ∈ xs, p x = false) → IsKept p xs [xs]
  | cons {piece ys : List ρ} {d : ρ} {parts : List (List ρ)} : (∀ x ∈ piece, p x = false) → p d = true → IsKept p ys parts → IsKept p (piece ++ d :: ys) (piece :: [d] :: parts)

/-! ## Proofs -/

variable {quiet : Prop}

/-- What comes behind the first piece. -/
theorem splitOnP_step (p : ρ → Bool) : ∀ xs : List ρ, xs.splitOnP p =
    (xs.takeWhile fun x => !p x) :: (match xs.dropWhile fun x => !p x with | [] => [] | _ :: ys => ys.splitOnP p)
  | [] => rfl
  | x :: xs => by
    rw [List.splitOnP_cons_eq_if_modifyHead]
    cases h : p x with
    | true => simp [h]
    | false =>
      rw [splitOnP_step p xs]
      simp [h]

theorem splitC_visits {q : Fn τ ρ Bool} (hq : quiet → q.Quiet) {r : RngC τ σ ρ} {N : Nat} : ∀ (n : Nat) (xs : List ρ) {s m : σ}, xs.length ≤ n → xs.length < N →
    VisitsC quiet r s xs → VisitsC quiet r m (xs.dropWhile fun x => !q.value x) →
    ∃ parts, VisitsC quiet (splitC r q N) ⟨s, m, xs.isEmpty⟩ parts ∧ List.Forall₂ (Between quiet r) parts (xs.splitOnP q.value)
  | n, xs, s, m, hn, hN, h, hm => by
    have hend : Post quiet ((splitC r q N).atEnd ⟨s, m, xs.isEmpty⟩) (· = false) := by
      cases xs with
      | nil => exact Post.eq h (Post.pure rfl)
      | cons x xs => exact Post.eq h.1 (Post.pure rfl)
    have hb : Between quiet r (s, m) (xs.takeWhile fun x => !q.value x) := ⟨_, by rw [List.takeWhile_append_dropWhile]; exact h, hm⟩
    rw [splitOnP_step]
    cases hd : xs.dropWhile fun x => !q.value x with
    | nil =>
      rw [hd] at hm
      exact ⟨[(s, m)], ⟨hend, Post.pure rfl, ⟨m, m, false⟩, Post.eq hm (Post.pure rfl), Post.eq hm (Post.pure rfl)⟩, .cons hb .nil⟩
    | cons d ys =>
      have hl := (List.dropWhile_sublist (l := xs) fun x => !q.value x).length_le
      rw [hd, List.length_cons] at hl
      rw [hd] at hm
      obtain ⟨m1, _, s', m3, m4⟩ := hm
      have hx : xs.isEmpty = false := by cases xs with | nil => simp at hd | cons => rfl
      obtain ⟨m', e, v⟩ := findIfC_post hq (f := N) m4 (by omega)
      match n, hn with
      | 0, hn => omega
      | n + 1, hn =>
      obtain ⟨parts, w, hp⟩ := splitC_visits hq (N := N) n ys (by omega) (by omega) m4 v
      have he : Post quiet (r.atEnd s') (· = ys.isEmpty) := by
        cases ys with
        | nil => exact m4
        | cons => exact m4.1
      refine ⟨(s, m) :: parts, ⟨hend, Post.pure rfl, ⟨s', m', ys.isEmpty⟩, Post.eq m1 ?_, w⟩, .cons hb hp⟩
      rw [hx]
      exact Post.eq m3 (Post.eq he (Post.eq e (Post.pure rfl)))

theorem takeWhile_not (p : ρ → Bool) (xs : List ρ) : ∀ x ∈ xs.takeWhile fun x => !p x, p x = false := fun x hx => by
  simpa using List.all_eq_true.1 (List.all_takeWhile (p := fun x => !p x) (l := xs)) x hx

theorem splitKeepC_visits {q : Fn τ ρ Bool} (hq : quiet → q.Quiet) {r : RngC τ σ ρ} {N : Nat} : ∀ (n : Nat) (xs : List ρ) {s m : σ}, xs.length ≤ n → xs.length < N →
    VisitsC quiet r s xs → VisitsC quiet r m (xs.dropWhile fun x => !q.value x) →
    ∃ its parts, VisitsC quiet (splitKeepC r q N) ⟨⟨s, m, xs.isEmpty⟩, !(xs.dropWhile fun x => !q.value x).isEmpty⟩ its ∧ IsKept q.value xs parts ∧
      List.Forall₂ (Between quiet r) its parts
  | n, xs, s, m, hn, hN, h, hm => by
    have hend : ∀ f, Post quiet ((splitKeepC r q N).atEnd ⟨⟨s, m, xs.isEmpty⟩, f⟩) (· = false) := fun f => by
      cases xs with
      | nil => exact Post.eq h (Post.pure rfl)
      | cons x xs => exact Post.eq h.1 (Post.pure rfl)
    have hb : Between quiet r (s, m) (xs.takeWhile fun x => !q.value x) := ⟨_, by rw [List.takeWhile_append_dropWhile]; exact h, hm⟩
    have hs := List.takeWhile_append_dropWhile (p := fun x => !q.value x) (l := xs)
    cases hd : xs.dropWhile fun x => !q.value x with
    | nil =>
      rw [hd] at hm hs
      rw [List.append_nil] at hs
      have ht := takeWhile_not q.value xs
      rw [hs] at hb ht
      refine ⟨[(s, m)], [xs], ?_, .last ht, .cons hb .nil⟩
      cases xs with
      | nil => exact ⟨hend _, Post.pure rfl, ⟨⟨s, m, false⟩, false⟩, Post.eq h (Post.pure rfl), Post.eq h (Post.pure rfl)⟩
      | cons x xs =>
        obtain ⟨m', e, v⟩ := findIfC_post hq (f := N) hm (Nat.lt_of_le_of_lt (Nat.zero_le _) hN)
        refine ⟨hend _, Post.pure rfl, ⟨⟨m, m', false⟩, false⟩, ?_, Post.eq hm (Post.pure rfl)⟩
        exact Post.eq e (Post.eq v (Post.pure rfl))
    | cons d ys =>
      have hl := (List.dropWhile_sublist (l := xs) fun x => !q.value x).length_le
      rw [hd, List.length_cons] at hl
      rw [hd] at hm hs
      have hm' := hm
      obtain ⟨m1, _, s', m3, m4⟩ := hm
      have hx : xs.isEmpty = false := by cases xs with | nil => simp at hd | cons => rfl
      have hp : q.value d = true := by
        have := head_dropWhile q.value xs d
        rw [hd] at this
        exact this rfl
      obtain ⟨m', e, v⟩ := findIfC_post hq (f := N) m4 (by omega)
      match n, hn with
      | 0, hn => omega
      | n + 1, hn =>
      obtain ⟨its, parts, w, hk, hf⟩ := splitKeepC_visits hq (N := N) n ys (by omega) (by omega) m4 v
      have he : Post quiet (r.atEnd s') (· = ys.isEmpty) := by
        cases ys with
        | nil => exact m4
        | cons => exact m4.1
      have hv : Post quiet (r.atEnd m') (· = (ys.dropWhile fun x => !q.value x).isEmpty) := by
        cases hz : ys.dropWhile fun x => !q.value x with
        | nil => rw [hz] at v; exact v
        | cons => rw [hz] at v; exact v.1
      refine ⟨(s, m) :: (m, s') :: its, _ :: [d] :: parts, ?_, ?_, .cons hb (.cons ⟨ys, hm', m4⟩ hf)⟩
      rotate_left
      · have hk := IsKept.cons (takeWhile_not q.value xs) hp hk
        rwa [hs] at hk
      refine ⟨hend _, Post.pure rfl, ⟨⟨m, s', ys.isEmpty⟩, false⟩, ?_, Post.eq m1 (Post.pure rfl), Post.pure rfl, _, ?_, w⟩
      · rw [hx]
        exact Post.eq m3 (Post.eq he (Post.pure rfl))
      · refine Post.eq (x := false) ?_ (Post.eq e (Post.eq hv (Post.pure rfl)))
        cases ys with
        | nil => exact m1
        | cons => exact Post.pure rfl

/-! ## The theorems -/

/-- **C116**, `split` of such a view, with a comparison with the delimiter that may throw: the call of `begin` throws or gives an iterator whose elements are the
pieces. So loops over them that exceptions stop can go on (`C116_loop`), and so can loops over a piece. -/
theorem C116_split {D : Nat} (p : PipeC τ ρ) (hp : p.Fits D) (q : Fn τ ρ Bool) :
    Post (q.Quiet ∧ p.Quiet) ((p.build D).bind fun B => (splitBeginC B.ops q (D + 1) B.first).bind fun s => .pure (⟨B, s⟩ : (B : BuiltC τ ρ) × SplitIt B.σ)) fun V =>
      ∃ parts, VisitsC (q.Quiet ∧ p.Quiet) (splitC V.1.ops q (D + 1)) V.2 parts ∧
        List.Forall₂ (Between (q.Quiet ∧ p.Quiet) V.1.ops) parts (p.denote.splitOnP q.value) := by
  refine ((C116_view p hp).mono (fun x : q.Quiet ∧ p.Quiet => x.2) fun _ e => e).bind fun B v => ?_
  have v := v.mono fun x : q.Quiet ∧ p.Quiet => x.2
  have hl := p.length_le hp
  obtain ⟨m, e, w⟩ := findIfC_post (p := q) (fun x : q.Quiet ∧ p.Quiet => x.1) (f := D + 1) v (by omega)
  obtain ⟨parts, h⟩ := splitC_visits (q := q) (fun x : q.Quiet ∧ p.Quiet => x.1) (N := D + 1) _ _ (Nat.le_refl _) (by omega) v w
  have he : Post (q.Quiet ∧ p.Quiet) (B.ops.atEnd B.first) (· = p.denote.isEmpty) := by
    cases hz : p.denote with
    | nil => rw [hz] at v; exact v
    | cons => rw [hz] at v; exact v.1
  exact Post.eq (x := ⟨B.first, m, p.denote.isEmpty⟩) (Post.eq e (Post.eq he (Post.pure rfl))) (Post.pure ⟨parts, h⟩)

/-- **C116**, `split_keep_delimiters` of such a view, in the same way. -/
theorem C116_split_keep_delimiters {D : Nat} (p : PipeC τ ρ) (hp : p.Fits D) (q : Fn τ ρ Bool) :
    Post (q.Quiet ∧ p.Quiet) ((p.build D).bind fun B => (splitKeepBeginC B.ops q (D + 1) B.first).bind fun s => .pure (⟨B, s⟩ : (B : BuiltC τ ρ) × SplitKeepIt B.σ)) fun V =>
      ∃ its parts, VisitsC (q.Quiet ∧ p.Quiet) (splitKeepC V.1.ops q (D + 1)) V.2 its ∧ IsKept q.value p.denote parts ∧
        List.Forall₂ (Between (q.Quiet ∧ p.Quiet) V.1.ops) its parts := by
  refine ((C116_view p hp).mono (fun x : q.Quiet ∧ p.Quiet => x.2) fun _ e => e).bind fun B v => ?_
  have v := v.mono fun x : q.Quiet ∧ p.Quiet => x.2
  have hl := p.length_le hp
  obtain ⟨m, e, w⟩ := findIfC_post (p := q) (fun x : q.Quiet ∧ p.Quiet => x.1) (f := D + 1) v (by omega)
  obtain ⟨its, parts, h⟩ := splitKeepC_visits (q := q) (fun x : q.Quiet ∧ p.Quiet => x.1) (N := D + 1) _ _ (Nat.le_refl _) (by omega) v w
  have he : Post (q.Quiet ∧ p.Quiet) (B.ops.atEnd B.first) (· = p.denote.isEmpty) := by
    cases hz : p.denote with
    | nil => rw [hz] at v; exact v
    | cons => rw [hz] at v; exact v.1
  have hm : Post (q.Quiet ∧ p.Quiet) (B.ops.atEnd m) (· = (p.denote.dropWhile fun x => !q.value x).isEmpty) := by
    cases hz : p.denote.dropWhile fun x => !q.value x with
    | nil => rw [hz] at w; exact w
    | cons => rw [hz] at w; exact w.1
  exact Post.eq (x := ⟨⟨B.first, m, p.denote.isEmpty⟩, !(p.denote.dropWhile fun x => !q.value x).isEmpty⟩)
    (Post.eq e (Post.eq he (Post.eq hm (Post.pure rfl)))) (Post.pure ⟨its, parts, h⟩)

/-- The hypotheses, for a view whose function may throw too. -/
example : (PipeC.map tenFn (.elements [1, 3, 4])).Fits 3 ∧ ¬ oddFn.Quiet := ⟨Nat.le_refl 3, fun h => h 1 6 rfl⟩

/-- `2, 4, 5, 6, 7, 7` split at odd numbers, given by the numbers of the elements: the first loop is stopped after the first piece has been seen. -/
example : (retryC (splitC (elementsC (τ := Nat) [2, 4, 5, 6, 7, 7]) oddFn 8) 20 0 ⟨0, 2, false⟩ false 6).seen = some ([(0, 2)], false) := by decide +kernel
example : (retryC (splitC (elementsC (τ := Nat) [2, 4, 5, 6, 7, 7]) oddFn 8) 20 1 ⟨0, 2, false⟩ false 6).seen = some ([(0, 2), (3, 4), (5, 5), (6, 6)], true) := by
  decide +kernel
example : (retryC (splitKeepC (elementsC (τ := Nat) [2, 4, 5, 6, 7, 7]) oddFn 8) 20 0 ⟨⟨0, 2, false⟩, true⟩ false 6).seen = some ([(0, 2), (2, 3)], false) := by
  decide +kernel
example : (retryC (splitKeepC (elementsC (τ := Nat) [2, 4, 5, 6, 7, 7]) oddFn 8) 20 1 ⟨⟨0, 2, false⟩, true⟩ false 6).seen =
    some ([(0, 2), (2, 3), (3, 4), (4, 5), (5, 5), (5, 6), (6, 6)], true) := by
  decide +kernel

end Verif.Views.Calling
