import Verif.Views.Throwing
import Verif.Algo.Order

/-!
# Algorithms over views whose functions throw (C117)

The algorithms that read ranges, over the views of `Throwing.lean` and with functions of their own that may throw. `N` is a number of steps that is enough; with
fewer the result is undefined, which the theorems exclude.
-/

namespace Verif.Views.Calling

variable {τ σ σ' ρ π β : Type} {quiet : Prop}

/-! ## Model -/

/-- `std::not_fn`, given to `find_if` by `find_if_not` (`algorithms/find.cpp` 65-68). -/
def Fn.neg (p : Fn τ ρ Bool) : Fn τ ρ Bool where
  run a t := ((p.run a t).1.map not, (p.run a t).2)
  value a := !p.value a
  agrees a t b h := by
    obtain ⟨c, hc, rfl⟩ := Option.map_eq_some_iff.1 h
    rw [p.agrees _ _ _ hc]

/-- `all` (`algorithms/all_any_none.cpp` 26-28). -/
def allC (r : RngC τ σ ρ) (p : Fn τ ρ Bool) (N : Nat) (first : σ) : Act τ Bool := do
  let it ← findIfC r p.neg N first
  r.atEnd it

/-- `any` (`algorithms/all_any_none.cpp` 55-57). -/
def anyC (r : RngC τ σ ρ) (p : Fn τ ρ Bool) (N : Nat) (first : σ) : Act τ Bool := do
  let it ← findIfC r p N first
  let e ← r.atEnd it
  pure (!e)

/-- `none` (`algorithms/all_any_none.cpp` 84-86). -/
def noneC (r : RngC τ σ ρ) (p : Fn τ ρ Bool) (N : Nat) (first : σ) : Act τ Bool := do
  let it ← findIfC r p N first
  r.atEnd it

/-- `maybe_find_if` (`algorithms/maybe_find.cpp` 27-35), for elements that are values: what is found is read again. -/
def maybeFindC (r : RngC τ σ ρ) (p : Fn τ ρ Bool) (N : Nat) (first : σ) : Act τ (Option ρ) := do
  let it ← findIfC r p N first
  if ← r.atEnd it then pure none else do
    let x ← r.deref it
    pure (some x)

/-- `count_if` (`algorithms/count.cpp` 22-31). Simplification: the count is a number without a bound; C94 is about its type. -/
def countC (r : RngC τ σ ρ) (p : Fn τ ρ Bool) : Nat → σ → Nat → Act τ Nat
  | 0, _, _ => .ub
  | f + 1, s, n => do
    if ← r.atEnd s then pure n else do
      let x ← r.deref s
      let b ← p.call x
      let s ← r.next s
      countC r p f s (if b then n + 1 else n)

/-- `distance` (`algorithms/distance.cpp` 23-29), for iterators that cannot be subtracted. Simplification: the difference is a number without a bound. -/
def distanceC (r : RngC τ σ ρ) : Nat → σ → Nat → Act τ Nat
  | 0, _, _ => .ub
  | f + 1, s, n => do
    if ← r.atEnd s then pure n else do
      let s ← r.next s
      distanceC r f s (n + 1)

/-- `accumulate` (`algorithms/accumulate.cpp` 63-75), for results that are not bounded integers. -/
def accumulateC (r : RngC τ σ ρ) (g : Fn τ (β × ρ) β) : Nat → σ → β → Act τ β
  | 0, _, _ => .ub
  | f + 1, s, result => do
    if ← r.atEnd s then pure result else do
      let x ← r.deref s
      let result ← g.call (result, x)
      let s ← r.next s
      accumulateC r g f s result

/-- `mismatch` (`algorithms/mismatch.cpp` 20-35). -/
def mismatchC (a : RngC τ σ ρ) (b : RngC τ σ' π) (q : Fn τ (ρ × π) Bool) : Nat → σ → σ' → Act τ (σ × σ')
  | 0, _, _ => .ub
  | f + 1, s, s' => do
    if ← a.atEnd s then pure (s, s') else do
    if ← b.atEnd s' then pure (s, s') else do
      let x ← a.deref s
      let y ← b.deref s'
      if ← q.call (x, y) then do
        let s ← a.next s
        let s' ← b.next s'
        mismatchC a b q f s s'
      else pure (s, s')

/-- `return first1 == last1 and first2 == last2` (`algorithms/compare.cpp` 137). -/
def equalEndC (a : RngC τ σ ρ) (b : RngC τ σ' π) (s : σ) (s' : σ') : Act τ Bool := do if ← a.atEnd s then b.atEnd s' else pure false

/-- `equal` (`algorithms/compare.cpp` 127-138), for ranges without a size. -/
def equalC (a : RngC τ σ ρ) (b : RngC τ σ' π) (q : Fn τ (ρ × π) Bool) : Nat → σ → σ' → Act τ Bool
  | 0, _, _ => .ub
  | f + 1, s, s' => do
    if ← a.atEnd s then equalEndC a b s s' else do
    if ← b.atEnd s' then equalEndC a b s s' else do
      let x ← a.deref s
      let y ← b.deref s'
      if ← q.call (x, y) then do
        let s ← a.next s
        let s' ← b.next s'
        equalC a b q f s s'
      else pure false

/-- The end of `lexicographical_compare` (`algorithms/compare.cpp` 67-70). -/
def lexEndC (a : RngC τ σ ρ) (b : RngC τ σ' π) (s : σ) (s' : σ') : Act τ Ordering := do
  if ← a.atEnd s then do
    if ← b.atEnd s' then pure .eq else pure .lt
  else pure .gt

/-- `lexicographical_compare` (`algorithms/compare.cpp` 52-71). -/
def lexC (a : RngC τ σ ρ) (b : RngC τ σ' π) (q : Fn τ (ρ × π) Ordering) : Nat → σ → σ' → Act τ Ordering
  | 0, _, _ => .ub
  | f + 1, s, s' => do
    if ← a.atEnd s then lexEndC a b s s' else do
    if ← b.atEnd s' then lexEndC a b s s' else do
      let x ← a.deref s
      let y ← b.deref s'
      let o ← q.call (x, y)
      if o = .eq then do
        let s ← a.next s
        let s' ← b.next s'
        lexC a b q f s s'
      else pure o

/-- The loop of `min_element` (`algorithms/minmax_element.cpp` 32-36). -/
def minLoopC (r : RngC τ σ ρ) (lt : Fn τ (ρ × ρ) Bool) : Nat → σ → σ → Act τ σ
  | 0, _, _ => .ub
  | f + 1, it, smallest => do
    if ← r.atEnd it then pure smallest else do
      let x ← r.deref it
      let y ← r.deref smallest
      let b ← lt.call (x, y)
      let it' ← r.next it
      minLoopC r lt f it' (if b then it else smallest)

/-- `min_element` (`algorithms/minmax_element.cpp` 25-38). -/
def minC (r : RngC τ σ ρ) (lt : Fn τ (ρ × ρ) Bool) (N : Nat) (first : σ) : Act τ σ := do
  if ← r.atEnd first then pure first else do
    let it ← r.next first
    minLoopC r lt N it first

/-! ## Specification -/

/-- Both lists have the same length and their elements are equal in pairs. -/
def sameBy (q : ρ × π → Bool) (xs : List ρ) (ys : List π) : Bool := decide (xs.length = ys.length) && (xs.zip ys).all q

/-- The first pair that is not equal decides, then the lengths do. -/
def lexBy (q : ρ × π → Ordering) (xs : List ρ) (ys : List π) : Ordering :=
  match ((xs.zip ys).map q).find? (· != .eq) with
  | some o => o
  | none => compare xs.length ys.length

/-- The length of the common part. -/
def commonLength (q : ρ × π → Bool) (xs : List ρ) (ys : List π) : Nat := ((xs.zip ys).takeWhile q).length

/-! ## Proofs -/

theorem Fn.neg_quiet {p : Fn τ ρ Bool} (h : p.Quiet) : p.neg.Quiet := fun a t => by
  simpa [Fn.neg] using h a t

theorem dropWhile_isEmpty (p : ρ → Bool) : ∀ xs : List ρ, (xs.dropWhile p).isEmpty = xs.all p
  | [] => rfl
  | x :: xs => by
    rw [List.dropWhile_cons, List.all_cons]
    cases p x
    · rfl
    · exact dropWhile_isEmpty p xs

theorem allC_post {p : Fn τ ρ Bool} (hq : quiet → p.Quiet) {r : RngC τ σ ρ} {xs : List ρ} {s : σ} {N : Nat} (h : VisitsC quiet r s xs) (hN : xs.length < N) :
    Post quiet (allC r p N s) (· = xs.all p.value) := by
  obtain ⟨s', e, v⟩ := findIfC_post (p := p.neg) (fun q => Fn.neg_quiet (hq q)) h hN
  refine Post.eq e (v.atEnd.mono id fun b hb => ?_)
  rw [hb, dropWhile_isEmpty]
  simp [Fn.neg]

theorem noneC_post {p : Fn τ ρ Bool} (hq : quiet → p.Quiet) {r : RngC τ σ ρ} {xs : List ρ} {s : σ} {N : Nat} (h : VisitsC quiet r s xs) (hN : xs.length < N) :
    Post quiet (noneC r p N s) (· = !xs.any p.value) := by
  obtain ⟨s', e, v⟩ := findIfC_post hq h hN
  refine Post.eq e (v.atEnd.mono id fun b hb => ?_)
  rw [hb, dropWhile_isEmpty, List.not_any_eq_all_not]

theorem anyC_post {p : Fn τ ρ Bool} (hq : quiet → p.Quiet) {r : RngC τ σ ρ} {xs : List ρ} {s : σ} {N : Nat} (h : VisitsC quiet r s xs) (hN : xs.length < N) :
    Post quiet (anyC r p N s) (· = xs.any p.value) := by
  obtain ⟨s', e, v⟩ := findIfC_post hq h hN
  refine Post.eq e (Post.eq v.atEnd (Post.pure ?_))
  rw [dropWhile_isEmpty, ← List.not_any_eq_all_not, Bool.not_not]

theorem find?_dropWhile (p : ρ → Bool) : ∀ xs : List ρ, xs.find? p = (xs.dropWhile fun x => !p x).head?
  | [] => rfl
  | x :: xs => by
    rw [List.find?_cons, List.dropWhile_cons]
    cases p x
    · exact find?_dropWhile p xs
    · rfl

theorem maybeFindC_post {p : Fn τ ρ Bool} (hq : quiet → p.Quiet) {r : RngC τ σ ρ} {xs : List ρ} {s : σ} {N : Nat} (h : VisitsC quiet r s xs) (hN : xs.length < N) :
    Post quiet (maybeFindC r p N s) (· = xs.find? p.value) := by
  obtain ⟨s', e, v⟩ := findIfC_post hq h hN
  rw [find?_dropWhile]
  refine Post.eq e ?_
  cases hl : xs.dropWhile fun x => !p.value x with
  | nil => rw [hl] at v; exact Post.eq v (Post.pure rfl)
  | cons y ys => rw [hl] at v; exact Post.eq v.1 (Post.eq v.2.1 (Post.pure rfl))

theorem countC_post {p : Fn τ ρ Bool} (hq : quiet → p.Quiet) {r : RngC τ σ ρ} : ∀ {xs : List ρ} {s : σ} {N n : Nat}, VisitsC quiet r s xs → xs.length < N →
    Post quiet (countC r p N s n) (· = n + xs.countP p.value)
  | _, _, 0, _, _, hN => by omega
  | [], _, N + 1, n, h, _ => Post.eq h (Post.pure rfl)
  | x :: xs, s, N + 1, n, ⟨h1, h2, s', h3, h4⟩, hN => by
    refine Post.eq h1 (Post.eq h2 (Post.eq (p.post hq x) (Post.eq h3 ?_)))
    refine (countC_post hq h4 (by simpa using hN)).mono id fun k hk => ?_
    rw [hk, List.countP_cons]
    split <;> omega

theorem distanceC_post {r : RngC τ σ ρ} : ∀ {xs : List ρ} {s : σ} {N n : Nat}, VisitsC quiet r s xs → xs.length < N → Post quiet (distanceC r N s n) (· = n + xs.length)
  | _, _, 0, _, _, hN => by omega
  | [], _, N + 1, n, h, _ => Post.eq h (Post.pure rfl)
  | x :: xs, s, N + 1, n, ⟨h1, _, s', h3, h4⟩, hN => by
    refine Post.eq h1 (Post.eq h3 ((distanceC_post h4 (by simpa using hN)).mono id fun k hk => ?_))
    rw [hk, List.length_cons]
    omega

theorem accumulateC_post {g : Fn τ (β × ρ) β} (hq : quiet → g.Quiet) {r : RngC τ σ ρ} : ∀ {xs : List ρ} {s : σ} {N : Nat} {b : β}, VisitsC quiet r s xs → xs.length < N →
    Post quiet (accumulateC r g N s b) (· = xs.foldl (fun b x => g.value (b, x)) b)
  | _, _, 0, _, _, hN => by omega
  | [], _, N + 1, b, h, _ => Post.eq h (Post.pure rfl)
  | x :: xs, s, N + 1, b, ⟨h1, h2, s', h3, h4⟩, hN =>
    Post.eq h1 (Post.eq h2 (Post.eq (g.post hq (b, x)) (Post.eq h3 (accumulateC_post hq h4 (by simpa using hN)))))

theorem mismatchC_post {q : Fn τ (ρ × π) Bool} (hq : quiet → q.Quiet) {a : RngC τ σ ρ} {b : RngC τ σ' π} : ∀ {xs : List ρ} {ys : List π} {s : σ} {s' : σ'} {N : Nat},
    VisitsC quiet a s xs → VisitsC quiet b s' ys → xs.length < N →
    Post quiet (mismatchC a b q N s s') fun z => VisitsC quiet a z.1 (xs.drop (commonLength q.value xs ys)) ∧ VisitsC quiet b z.2 (ys.drop (commonLength q.value xs ys))
  | _, _, _, _, 0, _, _, hN => by omega
  | [], ys, _, _, N + 1, h, h', _ => Post.eq h (Post.pure ⟨h, h'⟩)
  | x :: xs, [], _, _, N + 1, h, h', _ => Post.eq h.1 (Post.eq h' (Post.pure ⟨h, h'⟩))
  | x :: xs, y :: ys, s, s', N + 1, ⟨h1, h2, s1, h3, h4⟩, ⟨g1, g2, t1, g3, g4⟩, hN => by
    refine Post.eq h1 (Post.eq g1 (Post.eq h2 (Post.eq g2 (Post.eq (q.post hq (x, y)) ?_))))
    cases hp : q.value (x, y) with
    | true =>
      have e : commonLength q.value (x :: xs) (y :: ys) = commonLength q.value xs ys + 1 := by
        simp [commonLength, hp]
      rw [e]
      exact Post.eq h3 (Post.eq g3 (mismatchC_post hq h4 g4 (by simpa using hN)))
    | false =>
      have e : commonLength q.value (x :: xs) (y :: ys) = 0 := by
        simp [commonLength, hp]
      rw [e]
      exact Post.pure ⟨⟨h1, h2, s1, h3, h4⟩, g1, g2, t1, g3, g4⟩

theorem equalC_post {q : Fn τ (ρ × π) Bool} (hq : quiet → q.Quiet) {a : RngC τ σ ρ} {b : RngC τ σ' π} : ∀ {xs : List ρ} {ys : List π} {s : σ} {s' : σ'} {N : Nat},
    VisitsC quiet a s xs → VisitsC quiet b s' ys → xs.length < N → Post quiet (equalC a b q N s s') (· = sameBy q.value xs ys)
  | _, _, _, _, 0, _, _, hN => by omega
  | [], ys, _, _, N + 1, h, h', _ => by
    refine Post.eq h (Post.eq h (h'.atEnd.mono id fun c hc => ?_))
    rw [hc]
    cases ys <;> simp [sameBy]
  | x :: xs, [], _, _, N + 1, h, h', _ => Post.eq h.1 (Post.eq h' (Post.eq h.1 (Post.pure (by simp [sameBy]))))
  | x :: xs, y :: ys, s, s', N + 1, ⟨h1, h2, s1, h3, h4⟩, ⟨g1, g2, t1, g3, g4⟩, hN => by
    refine Post.eq h1 (Post.eq g1 (Post.eq h2 (Post.eq g2 (Post.eq (q.post hq (x, y)) ?_))))
    cases hp : q.value (x, y) with
    | true =>
      refine Post.eq h3 (Post.eq g3 ((equalC_post hq h4 g4 (by simpa using hN)).mono id fun c hc => ?_))
      rw [hc]
      simp [sameBy, hp]
    | false => exact Post.pure (by simp [sameBy, hp])

theorem lexC_post {q : Fn τ (ρ × π) Ordering} (hq : quiet → q.Quiet) {a : RngC τ σ ρ} {b : RngC τ σ' π} : ∀ {xs : List ρ} {ys : List π} {s : σ} {s' : σ'} {N : Nat},
    VisitsC quiet a s xs → VisitsC quiet b s' ys → xs.length < N → Post quiet (lexC a b q N s s') (· = lexBy q.value xs ys)
  | _, _, _, _, 0, _, _, hN => by omega
  | [], [], _, _, N + 1, h, h', _ => Post.eq h (Post.eq h (Post.eq h' (Post.pure rfl)))
  | [], y :: ys, _, _, N + 1, h, h', _ => Post.eq h (Post.eq h (Post.eq h'.1 (Post.pure (by
      simp only [lexBy, List.zip_nil_left, List.map_nil, List.find?_nil, List.length_nil, List.length_cons]
      exact (Nat.compare_eq_lt.2 (by omega)).symm))))
  | x :: xs, [], _, _, N + 1, h, h', _ => Post.eq h.1 (Post.eq h' (Post.eq h.1 (Post.pure (by
      simp only [lexBy, List.zip_nil_right, List.map_nil, List.find?_nil, List.length_nil, List.length_cons]
      exact (Nat.compare_eq_gt.2 (by omega)).symm))))
  | x :: xs, y :: ys, s, s', N + 1, ⟨h1, h2, s1, h3, h4⟩, ⟨g1, g2, t1, g3, g4⟩, hN => by
    refine Post.eq h1 (Post.eq g1 (Post.eq h2 (Post.eq g2 (Post.eq (q.post hq (x, y)) ?_))))
    by_cases hp : q.value (x, y) = .eq
    · rw [if_pos hp]
      refine Post.eq h3 (Post.eq g3 ((lexC_post hq h4 g4 (by simpa using hN)).mono id fun c hc => ?_))
      rw [hc]
      simp only [lexBy, List.zip_cons_cons, List.map_cons, hp, List.find?_cons, bne_self_eq_false, List.length_cons]
      rw [show compare (xs.length + 1) (ys.length + 1) = compare xs.length ys.length by simp [Nat.compare_eq_ite_lt]]
    · rw [if_neg hp]
      refine Post.pure ?_
      simp only [lexBy, List.zip_cons_cons, List.map_cons, List.find?_cons, bne_iff_ne.2 hp]

/-- The first of the smallest elements. -/
def IsFirstMin (lt : ρ × ρ → Bool) (pre : List ρ) (x : ρ) (post : List ρ) : Prop := (∀ y ∈ pre, lt (x, y) = true) ∧ ∀ y ∈ post, lt (y, x) = false

theorem minLoopC_post {lt : Fn τ (ρ × ρ) Bool} (hq : quiet → lt.Quiet) (hs : Algo.StrictWeak fun a b => lt.value (a, b)) {r : RngC τ σ ρ} :
    ∀ {ys pre mid : List ρ} {x : ρ} {it smallest : σ} {N : Nat}, VisitsC quiet r it ys → VisitsC quiet r smallest (x :: (mid ++ ys)) →
    IsFirstMin lt.value pre x mid → ys.length < N →
    Post quiet (minLoopC r lt N it smallest) fun z => ∃ pre' x' post', pre' ++ x' :: post' = pre ++ x :: (mid ++ ys) ∧ VisitsC quiet r z (x' :: post') ∧
      IsFirstMin lt.value pre' x' post'
  | _, _, _, _, _, _, 0, _, _, _, hN => by omega
  | [], pre, mid, x, _, _, N + 1, h, hx, hm, _ => Post.eq h (Post.pure ⟨pre, x, mid, by simp, by simpa using hx, hm⟩)
  | y :: ys, pre, mid, x, it, smallest, N + 1, h, hx, hm, hN => by
    obtain ⟨h1, h2, s', h3, h4⟩ := h
    refine Post.eq h1 (Post.eq h2 (Post.eq hx.2.1 (Post.eq (lt.post hq (y, x)) (Post.eq h3 ?_))))
    cases hp : lt.value (y, x) with
    | true =>
      have hm' : IsFirstMin lt.value (pre ++ x :: mid) y [] := by
        refine ⟨fun z hz => ?_, by simp⟩
        rcases List.mem_append.1 hz with hz | hz
        · by_contra hc
          have h5 : lt.value (y, x) = false := hs.negTrans (hs.asymm (hm.1 z hz)) (by simpa using hc)
          rw [hp] at h5
          exact absurd h5 (by simp)
        · rcases List.mem_cons.1 hz with rfl | hz
          · exact hp
          · by_contra hc
            have h5 : lt.value (y, x) = false := hs.negTrans (hm.2 z hz) (by simpa using hc)
            rw [hp] at h5
            exact absurd h5 (by simp)
      refine (minLoopC_post hq hs (pre := pre ++ x :: mid) (mid := []) (x := y) h4 ⟨h1, h2, s', h3, h4⟩ hm' (by simpa using hN)).mono id ?_
      rintro z ⟨p', x', q', e, v⟩
      exact ⟨p', x', q', by rw [e]; simp, v⟩
    | false =>
      have hm' : IsFirstMin lt.value pre x (mid ++ [y]) := by
        refine ⟨hm.1, fun z hz => ?_⟩
        rcases List.mem_append.1 hz with hz | hz
        · exact hm.2 z hz
        · rw [List.mem_singleton.1 hz]; exact hp
      refine (minLoopC_post hq hs (pre := pre) (mid := mid ++ [y]) (x := x) h4 (by simpa using hx) hm' (by simpa using hN)).mono id ?_
      rintro z ⟨p', x', q', e, v⟩
      exact ⟨p', x', q', by rw [e]; simp, v⟩

theorem minC_post {lt : Fn τ (ρ × ρ) Bool} (hq : quiet → lt.Quiet) (hs : Algo.StrictWeak fun a b => lt.value (a, b)) {r : RngC τ σ ρ} {xs : List ρ} {s : σ} {N : Nat}
    (h : VisitsC quiet r s xs) (hN : xs.length < N) :
    Post quiet (minC r lt N s) fun z => (xs = [] ∧ VisitsC quiet r z []) ∨ ∃ pre x post, xs = pre ++ x :: post ∧ VisitsC quiet r z (x :: post) ∧ IsFirstMin lt.value pre x post := by
  cases xs with
  | nil => exact Post.eq h (Post.pure (.inl ⟨rfl, h⟩))
  | cons x xs =>
    obtain ⟨h1, h2, s', h3, h4⟩ := h
    refine Post.eq h1 (Post.eq h3 ?_)
    rw [List.length_cons] at hN
    refine (minLoopC_post hq hs (pre := []) (mid := []) (x := x) h4 ⟨h1, h2, s', h3, h4⟩ ⟨by simp, by simp⟩ (by omega)).mono id ?_
    rintro z ⟨p', x', q', e, v⟩
    exact .inr ⟨p', x', q', by rw [e]; rfl, v⟩

/-! ## The algorithms over views -/

variable {D : Nat}

/-- An algorithm that reads a view. -/
def onView {Y : Type} (D : Nat) (p : PipeC τ ρ) (k : (B : BuiltC τ ρ) → Act τ Y) : Act τ Y := (p.build D).bind k

/-- An algorithm that reads two views; both calls of `begin` come first. -/
def onViews {Y : Type} (D : Nat) (p : PipeC τ ρ) (p' : PipeC τ π) (k : (A : BuiltC τ ρ) → (B : BuiltC τ π) → Act τ Y) : Act τ Y :=
  (p.build D).bind fun A => (p'.build D).bind fun B => k A B

theorem onView_post {Y : Type} {Q : Y → Prop} {X : Prop} (p : PipeC τ ρ) (hp : p.Fits D) {k : (B : BuiltC τ ρ) → Act τ Y}
    (h : ∀ B : BuiltC τ ρ, VisitsC (X ∧ p.Quiet) B.ops B.first p.denote → p.denote.length < D + 1 → Post (X ∧ p.Quiet) (k B) Q) : Post (X ∧ p.Quiet) (onView D p k) Q :=
  ((C116_view p hp).mono (fun x : X ∧ p.Quiet => x.2) fun _ e => e).bind fun B v => h B (v.mono fun x => x.2) (Nat.lt_succ_of_le (p.length_le hp))

theorem onViews_post {Y : Type} {Q : Y → Prop} {X : Prop} (p : PipeC τ ρ) (p' : PipeC τ π) (hp : p.Fits D) (hp' : p'.Fits D)
    {k : (A : BuiltC τ ρ) → (B : BuiltC τ π) → Act τ Y}
    (h : ∀ (A : BuiltC τ ρ) (B : BuiltC τ π), VisitsC (X ∧ p.Quiet ∧ p'.Quiet) A.ops A.first p.denote → VisitsC (X ∧ p.Quiet ∧ p'.Quiet) B.ops B.first p'.denote →
      p.denote.length < D + 1 → Post (X ∧ p.Quiet ∧ p'.Quiet) (k A B) Q) : Post (X ∧ p.Quiet ∧ p'.Quiet) (onViews D p p' k) Q :=
  ((C116_view p hp).mono (fun x : X ∧ p.Quiet ∧ p'.Quiet => x.2.1) fun _ e => e).bind fun A v =>
    ((C116_view p' hp').mono (fun x : X ∧ p.Quiet ∧ p'.Quiet => x.2.2) fun _ e => e).bind fun B w =>
      h A B (v.mono fun x => x.2.1) (w.mono fun x => x.2.2) (Nat.lt_succ_of_le (p.length_le hp))

/-- **C117**, `all`: it throws, or the result is that for the list. Only functions that may throw make it throw, and nothing undefined happens; so for the others. -/
theorem C117_all (p : PipeC τ ρ) (hp : p.Fits D) (q : Fn τ ρ Bool) :
    Post (q.Quiet ∧ p.Quiet) (onView D p fun B => allC B.ops q (D + 1) B.first) (· = p.denote.all q.value) :=
  onView_post p hp fun _ v hl => allC_post (fun x => x.1) v hl

/-- **C117**, `any`. -/
theorem C117_any (p : PipeC τ ρ) (hp : p.Fits D) (q : Fn τ ρ Bool) :
    Post (q.Quiet ∧ p.Quiet) (onView D p fun B => anyC B.ops q (D + 1) B.first) (· = p.denote.any q.value) :=
  onView_post p hp fun _ v hl => anyC_post (fun x => x.1) v hl

/-- **C117**, `none`. -/
theorem C117_none (p : PipeC τ ρ) (hp : p.Fits D) (q : Fn τ ρ Bool) :
    Post (q.Quiet ∧ p.Quiet) (onView D p fun B => noneC B.ops q (D + 1) B.first) (· = !p.denote.any q.value) :=
  onView_post p hp fun _ v hl => noneC_post (fun x => x.1) v hl

/-- **C117**, `maybe_find_if`. -/
theorem C117_maybe_find_if (p : PipeC τ ρ) (hp : p.Fits D) (q : Fn τ ρ Bool) :
    Post (q.Quiet ∧ p.Quiet) (onView D p fun B => maybeFindC B.ops q (D + 1) B.first) (· = p.denote.find? q.value) :=
  onView_post p hp fun _ v hl => maybeFindC_post (fun x => x.1) v hl

/-- **C117**, `count_if`. -/
theorem C117_count_if (p : PipeC τ ρ) (hp : p.Fits D) (q : Fn τ ρ Bool) :
    Post (q.Quiet ∧ p.Quiet) (onView D p fun B => countC B.ops q (D + 1) B.first 0) (· = p.denote.countP q.value) :=
  onView_post p hp fun _ v hl => (countC_post (fun x => x.1) v hl).mono id fun _ e => e.trans (Nat.zero_add _)

/-- **C117**, `distance`. -/
theorem C117_distance (p : PipeC τ ρ) (hp : p.Fits D) :
    Post (True ∧ p.Quiet) (onView D p fun B => distanceC B.ops (D + 1) B.first 0) (· = p.denote.length) :=
  onView_post p hp fun _ v hl => (distanceC_post v hl).mono id fun _ e => e.trans (Nat.zero_add _)

/-- **C117**, `accumulate`. -/
theorem C117_accumulate (p : PipeC τ ρ) (hp : p.Fits D) (g : Fn τ (β × ρ) β) (initial : β) :
    Post (g.Quiet ∧ p.Quiet) (onView D p fun B => accumulateC B.ops g (D + 1) B.first initial) (· = p.denote.foldl (fun b x => g.value (b, x)) initial) :=
  onView_post p hp fun _ v hl => accumulateC_post (fun x => x.1) v hl

/-- **C117**, `min_element`: the iterator is at the first of the smallest elements, or at the end of an empty view. -/
theorem C117_min_element (p : PipeC τ ρ) (hp : p.Fits D) (lt : Fn τ (ρ × ρ) Bool) (hs : Algo.StrictWeak fun a b => lt.value (a, b)) :
    Post (lt.Quiet ∧ p.Quiet) ((p.build D).bind fun B => (minC B.ops lt (D + 1) B.first).bind fun z => .pure (⟨B, z⟩ : (B : BuiltC τ ρ) × B.σ)) fun V =>
      (p.denote = [] ∧ VisitsC (lt.Quiet ∧ p.Quiet) V.1.ops V.2 []) ∨
        ∃ pre x post, p.denote = pre ++ x :: post ∧ VisitsC (lt.Quiet ∧ p.Quiet) V.1.ops V.2 (x :: post) ∧ IsFirstMin lt.value pre x post :=
  ((C116_view p hp).mono (fun x : lt.Quiet ∧ p.Quiet => x.2) fun _ e => e).bind fun B v =>
    (minC_post (quiet := lt.Quiet ∧ p.Quiet) (fun x => x.1) hs (v.mono fun x => x.2) (Nat.lt_succ_of_le (p.length_le hp))).bind fun _ h => Post.pure h

/-- **C117**, `mismatch`: the iterators are behind the common part. -/
theorem C117_mismatch (p : PipeC τ ρ) (p' : PipeC τ π) (hp : p.Fits D) (hp' : p'.Fits D) (q : Fn τ (ρ × π) Bool) :
    Post (q.Quiet ∧ p.Quiet ∧ p'.Quiet) ((p.build D).bind fun A => (p'.build D).bind fun B => (mismatchC A.ops B.ops q (D + 1) A.first B.first).bind fun z =>
        .pure (⟨A, B, z⟩ : (A : BuiltC τ ρ) × (B : BuiltC τ π) × (A.σ × B.σ))) fun V =>
      VisitsC (q.Quiet ∧ p.Quiet ∧ p'.Quiet) V.1.ops V.2.2.1 (p.denote.drop (commonLength q.value p.denote p'.denote)) ∧
      VisitsC (q.Quiet ∧ p.Quiet ∧ p'.Quiet) V.2.1.ops V.2.2.2 (p'.denote.drop (commonLength q.value p.denote p'.denote)) :=
  ((C116_view p hp).mono (fun x : q.Quiet ∧ p.Quiet ∧ p'.Quiet => x.2.1) fun _ e => e).bind fun A v =>
    ((C116_view p' hp').mono (fun x : q.Quiet ∧ p.Quiet ∧ p'.Quiet => x.2.2) fun _ e => e).bind fun B w =>
      (mismatchC_post (fun x => x.1) (v.mono fun x => x.2.1) (w.mono fun x => x.2.2) (Nat.lt_succ_of_le (p.length_le hp))).bind fun _ h => Post.pure h

/-- **C117**, `equal`. -/
theorem C117_equal (p : PipeC τ ρ) (p' : PipeC τ π) (hp : p.Fits D) (hp' : p'.Fits D) (q : Fn τ (ρ × π) Bool) :
    Post (q.Quiet ∧ p.Quiet ∧ p'.Quiet) (onViews D p p' fun A B => equalC A.ops B.ops q (D + 1) A.first B.first) (· = sameBy q.value p.denote p'.denote) :=
  onViews_post p p' hp hp' fun _ _ v w hl => equalC_post (fun x => x.1) v w hl

/-- **C117**, `lexicographical_compare`. -/
theorem C117_lexicographical_compare (p : PipeC τ ρ) (p' : PipeC τ π) (hp : p.Fits D) (hp' : p'.Fits D) (q : Fn τ (ρ × π) Ordering) :
    Post (q.Quiet ∧ p.Quiet ∧ p'.Quiet) (onViews D p p' fun A B => lexC A.ops B.ops q (D + 1) A.first B.first) (· = lexBy q.value p.denote p'.denote) :=
  onViews_post p p' hp hp' fun _ _ v w hl => lexC_post (fun x => x.1) v w hl

/-! ## Cases -/

/-- The result, if there is one. -/
def Act.result {Y : Type} (a : Act τ Y) (t : τ) : Option Y :=
  match a t with
  | .ok y _ => some y
  | _ => none

/-- The sum; the call whose number is a multiple of seven throws. -/
def sumFn : Fn Nat (Nat × Nat) Nat where
  run a t := (if t % 7 = 6 then none else some (a.1 + a.2), t + 1)
  value a := a.1 + a.2
  agrees a t b h := by
    dsimp only at h
    split at h
    · exact absurd h (by simp)
    · exact (Option.some.inj h).symm

/-- The order; the call whose number is a multiple of seven throws. -/
def cmpFn : Fn Nat (Nat × Nat) Ordering where
  run a t := (if t % 7 = 6 then none else some (compare a.1 a.2), t + 1)
  value a := compare a.1 a.2
  agrees a t b h := by
    dsimp only at h
    split at h
    · exact absurd h (by simp)
    · exact (Option.some.inj h).symm

/-- Less; the call whose number is a multiple of seven throws. -/
def ltFn : Fn Nat (Nat × Nat) Bool where
  run a t := (if t % 7 = 6 then none else some (decide (a.1 < a.2)), t + 1)
  value a := decide (a.1 < a.2)
  agrees a t b h := by
    dsimp only at h
    split at h
    · exact absurd h (by simp)
    · exact (Option.some.inj h).symm

/-- Ten times `1, 2, 3`. -/
def tens : PipeC Nat Nat := .map tenFn (.elements [1, 2, 3])

example : tens.Fits 3 ∧ ¬ tens.Quiet ∧ tens.denote = [10, 20, 30] := ⟨Nat.le_refl 3, fun h => h.1 1 6 rfl, rfl⟩
example : Algo.StrictWeak fun a b => ltFn.value (a, b) := ⟨by simp [ltFn]; omega, by simp [ltFn]; omega⟩

/-- With six calls the sum is found, if the first of them is not too late. -/
example : (onView 3 tens fun B => accumulateC B.ops sumFn 4 B.first 0).result 0 = some 60 := by decide +kernel
example : (onView 3 tens fun B => accumulateC B.ops sumFn 4 B.first 0).result 1 = none := by decide +kernel
example : (onView 3 tens fun B => countC B.ops oddFn 4 B.first 0).result 0 = some 0 := by decide +kernel
example : (onView 3 (.elements [2, 4, 5]) fun B => maybeFindC B.ops oddFn 4 B.first).result 0 = some (some 5) := by decide +kernel
example : (onViews 3 tens (.elements [10, 20, 40]) fun A B => lexC A.ops B.ops cmpFn 4 A.first B.first).result 0 = some .lt := by decide +kernel
example : (onViews 3 tens (.elements [10, 20]) fun A B => lexC A.ops B.ops cmpFn 4 A.first B.first).result 0 = some .gt := by decide +kernel
example : (onViews 3 tens (.elements [10, 20, 31]) fun A B => equalC A.ops B.ops sameFn 4 A.first B.first).result 0 = some false := by decide +kernel
example : (onViews 3 tens (.elements [0, 2, 4]) fun A B => equalC A.ops B.ops sameFn 4 A.first B.first).result 0 = some true := by decide +kernel

end Verif.Views.Calling
