import Verif.Views.Basic
import Mathlib.Tactic.SplitIfs
import Mathlib.Tactic.IntervalCases

/-!
# Comparing ranges (C47)
-/

namespace Verif.Views

variable {σ τ ρ π : Type}

/-- `std::strong_ordering`, `std::weak_ordering` and `std::partial_ordering` in one type. -/
inductive POrd where
  | less | equal | greater | unordered
  deriving DecidableEq, Repr

/-- The comparison with the arguments exchanged. -/
def POrd.swap : POrd → POrd
  | .less => .greater
  | .equal => .equal
  | .greater => .less
  | .unordered => .unordered

/-- A total ordering as a partial one (conversion of `std::strong_ordering` to `std::partial_ordering`). -/
def POrd.ofOrdering : Ordering → POrd
  | .lt => .less
  | .eq => .equal
  | .gt => .greater

/-! ## The code -/

/-- `lexicographical_compare_assume_same_size` (`algorithms/compare.cpp` 32-50), the loop. -/
def lexSameLoop (r : Rng σ ρ) (q : Rng τ π) (cmp : ρ → π → POrd) : Nat → σ → τ → Option (Res POrd)
  | 0, _, _ => none
  | f + 1, s, t =>
    match r.atEnd s with
    | .ub => some .ub
    | .exn => some .exn
    | .ok true => some (.ok .equal)
    | .ok false =>
      match r.deref s, q.deref t with
      | .ok x, .ok y =>
        if cmp x y ≠ .equal then some (.ok (cmp x y)) else
        match r.next s, q.next t with
        | .ok s', .ok t' => lexSameLoop r q cmp f s' t'
        | .exn, _ => some .exn
        | .ok _, .exn => some .exn
        | _, _ => some .ub
      | .exn, _ => some .exn
      | .ok _, .exn => some .exn
      | _, _ => some .ub

/-- `lexicographical_compare_assume_same_size` (`algorithms/compare.cpp` 32-50): the assertion is there if both ranges have sizes. -/
def lexSame (R : Range σ ρ) (Q : Range τ π) (cmp : ρ → π → POrd) (f : Nat) : Option (Res POrd) :=
  match R.size?, Q.size? with
  | some n, some m => if n = m then lexSameLoop R.ops Q.ops cmp f R.first Q.first else some .ub
  | _, _ => lexSameLoop R.ops Q.ops cmp f R.first Q.first

/-- `lexicographical_compare` (`algorithms/compare.cpp` 52-71), the loop and the result. `&&` does not look at the second end if the
first one is reached. -/
def lexLoop (r : Rng σ ρ) (q : Rng τ π) (cmp : ρ → π → POrd) : Nat → σ → τ → Option (Res POrd)
  | 0, _, _ => none
  | f + 1, s, t =>
    match r.atEnd s with
    | .ub => some .ub
    | .exn => some .exn
    | .ok true =>
      match q.atEnd t with
      | .ub => some .ub
      | .exn => some .exn
      | .ok false => some (.ok .less)
      | .ok true => some (.ok .equal)
    | .ok false =>
      match q.atEnd t with
      | .ub => some .ub
      | .exn => some .exn
      | .ok true => some (.ok .greater)
      | .ok false =>
        match r.deref s, q.deref t with
        | .ok x, .ok y =>
          if cmp x y ≠ .equal then some (.ok (cmp x y)) else
          match r.next s, q.next t with
          | .ok s', .ok t' => lexLoop r q cmp f s' t'
          | .exn, _ => some .exn
          | .ok _, .exn => some .exn
          | _, _ => some .ub
        | .exn, _ => some .exn
        | .ok _, .exn => some .exn
        | _, _ => some .ub

/-- `lexicographical_compare` (`algorithms/compare.cpp` 52-71). -/
def lexCompare (R : Range σ ρ) (Q : Range τ π) (cmp : ρ → π → POrd) (f : Nat) : Option (Res POrd) :=
  lexLoop R.ops Q.ops cmp f R.first Q.first

/-- `shortlex_compare` (`algorithms/compare.cpp` 75-89). It needs ranges that have sizes, without them the call does not compile: `ub`
stands for that. -/
def shortlexCompare (R : Range σ ρ) (Q : Range τ π) (cmp : ρ → π → POrd) (f : Nat) : Option (Res POrd) :=
  match R.size?, Q.size? with
  | some n, some m =>
    if compare n m ≠ .eq then some (.ok (.ofOrdering (compare n m))) else lexSame R Q cmp f
  | _, _ => some .ub

/-- `equal_assume_same_size` (`algorithms/compare.cpp` 92-110), the loop. -/
def equalSameLoop (r : Rng σ ρ) (q : Rng τ π) (eq : ρ → π → Bool) : Nat → σ → τ → Option (Res Bool)
  | 0, _, _ => none
  | f + 1, s, t =>
    match r.atEnd s with
    | .ub => some .ub
    | .exn => some .exn
    | .ok true => some (.ok true)
    | .ok false =>
      match r.deref s, q.deref t with
      | .ok x, .ok y =>
        if !eq x y then some (.ok false) else
        match r.next s, q.next t with
        | .ok s', .ok t' => equalSameLoop r q eq f s' t'
        | .exn, _ => some .exn
        | .ok _, .exn => some .exn
        | _, _ => some .ub
      | .exn, _ => some .exn
      | .ok _, .exn => some .exn
      | _, _ => some .ub

/-- `equal_assume_same_size` (`algorithms/compare.cpp` 92-110). -/
def equalSame (R : Range σ ρ) (Q : Range τ π) (eq : ρ → π → Bool) (f : Nat) : Option (Res Bool) :=
  match R.size?, Q.size? with
  | some n, some m => if n = m then equalSameLoop R.ops Q.ops eq f R.first Q.first else some .ub
  | _, _ => equalSameLoop R.ops Q.ops eq f R.first Q.first

/-- `equal` (`algorithms/compare.cpp` 127-138), the loop for ranges without sizes. -/
def equalLoop (r : Rng σ ρ) (q : Rng τ π) (eq : ρ → π → Bool) : Nat → σ → τ → Option (Res Bool)
  | 0, _, _ => none
  | f + 1, s, t =>
    match r.atEnd s with
    | .ub => some .ub
    | .exn => some .exn
    | .ok true => some (q.atEnd t)
    | .ok false =>
      match q.atEnd t with
      | .ub => some .ub
      | .exn => some .exn
      | .ok true => some (.ok false)
      | .ok false =>
        match r.deref s, q.deref t with
        | .ok x, .ok y =>
          if !eq x y then some (.ok false) else
          match r.next s, q.next t with
          | .ok s', .ok t' => equalLoop r q eq f s' t'
          | .exn, _ => some .exn
          | .ok _, .exn => some .exn
          | _, _ => some .ub
        | .exn, _ => some .exn
        | .ok _, .exn => some .exn
        | _, _ => some .ub

/-- `equal` (`algorithms/compare.cpp` 113-139). -/
def equal (R : Range σ ρ) (Q : Range τ π) (eq : ρ → π → Bool) (f : Nat) : Option (Res Bool) :=
  match R.size?, Q.size? with
  | some n, some m => if n = m then equalSame R Q eq f else some (.ok false)
  | _, _ => equalLoop R.ops Q.ops eq f R.first Q.first

/-! ## The specification -/

/-- The result of comparing two sequences in dictionary order: the first position where the elements do not compare equal decides,
if there is none the shorter one is less. -/
inductive LexIs (cmp : ρ → π → POrd) (xs : List ρ) (ys : List π) : POrd → Prop
  | differ (i : Nat) (hx : i < xs.length) (hy : i < ys.length)
      (before : ∀ k (hk : k < i), cmp (xs[k]'(by omega)) (ys[k]'(by omega)) = .equal) (here : cmp xs[i] ys[i] ≠ .equal) :
      LexIs cmp xs ys (cmp xs[i] ys[i])
  | shorter (before : ∀ k (hx : k < xs.length) (hy : k < ys.length), cmp xs[k] ys[k] = .equal) :
      LexIs cmp xs ys (.ofOrdering (compare xs.length ys.length))

/-- The result of comparing two sequences by length and then in dictionary order. -/
def ShortlexIs (cmp : ρ → π → POrd) (xs : List ρ) (ys : List π) (c : POrd) : Prop :=
  (xs.length < ys.length → c = .less) ∧ (ys.length < xs.length → c = .greater) ∧ (xs.length = ys.length → LexIs cmp xs ys c)

/-- Elementwise equality of sequences of the same length. -/
def SameElements (eq : ρ → π → Bool) (xs : List ρ) (ys : List π) : Prop :=
  xs.length = ys.length ∧ ∀ k (hx : k < xs.length) (hy : k < ys.length), eq xs[k] ys[k] = true

theorem LexIs.cons_ne {cmp : ρ → π → POrd} {x : ρ} {y : π} (xs : List ρ) (ys : List π) (h : cmp x y ≠ .equal) :
    LexIs cmp (x :: xs) (y :: ys) (cmp x y) :=
  LexIs.differ 0 (by simp) (by simp) (fun _ hk => absurd hk (by omega)) h

theorem LexIs.cons_eq {cmp : ρ → π → POrd} {x : ρ} {y : π} {xs : List ρ} {ys : List π} (h : cmp x y = .equal) {c : POrd} (l : LexIs cmp xs ys c) :
    LexIs cmp (x :: xs) (y :: ys) c := by
  cases l with
  | differ i hx hy before here =>
    have := LexIs.differ (cmp := cmp) (xs := x :: xs) (ys := y :: ys) (i + 1) (by simpa using hx) (by simpa using hy)
      (by intro k hk
          cases k with
          | zero => exact h
          | succ k => exact before k (by omega))
      (by simpa using here)
    simpa using this
  | shorter before =>
    have := LexIs.shorter (cmp := cmp) (xs := x :: xs) (ys := y :: ys) (by
      intro k hx hy
      cases k with
      | zero => exact h
      | succ k => exact before k (by simpa using hx) (by simpa using hy))
    have e : compare (xs.length + 1) (ys.length + 1) = compare xs.length ys.length := by
      rw [Nat.compare_eq_ite_lt, Nat.compare_eq_ite_lt]; simp only [Nat.add_lt_add_iff_right]
    simpa only [List.length_cons, e] using this

/-- The result is unique. -/
theorem LexIs.unique {cmp : ρ → π → POrd} {xs : List ρ} {ys : List π} {c d : POrd} (h : LexIs cmp xs ys c) (h' : LexIs cmp xs ys d) : c = d := by
  cases h with
  | differ i hx hy before here =>
    cases h' with
    | differ j hx' hy' before' here' =>
      rcases Nat.lt_trichotomy i j with hij | rfl | hij
      · exact absurd (before' i hij) here
      · rfl
      · exact absurd (before j hij) here'
    | shorter before' => exact absurd (before' i hx hy) here
  | shorter before =>
    cases h' with
    | differ j hx' hy' _ here' => exact absurd (before j hx' hy') here'
    | shorter _ => rfl

/-! ## The loops -/

theorem lexLoop_spec {r : Rng σ ρ} {q : Rng τ π} {cmp : ρ → π → POrd} : ∀ {xs : List ρ} {ys : List π} {s : σ} {t : τ} {f : Nat},
    Visits r s xs → Visits q t ys → xs.length < f → ∃ c, lexLoop r q cmp f s t = some (.ok c) ∧ LexIs cmp xs ys c
  | _, _, _, _, 0, _, _, hf => by omega
  | [], [], s, t, f + 1, hx, hy, _ => by
    rw [Visits] at hx hy
    exact ⟨.equal, by simp only [lexLoop, hx, hy], LexIs.shorter (by intro k hk; simp at hk)⟩
  | [], y :: ys, s, t, f + 1, hx, hy, _ => by
    rw [Visits] at hx
    refine ⟨.less, by simp only [lexLoop, hx, hy.1], ?_⟩
    have := LexIs.shorter (cmp := cmp) (xs := []) (ys := y :: ys) (by intro k hk; simp at hk)
    rwa [show compare ([] : List ρ).length (y :: ys).length = .lt from by rw [Nat.compare_eq_ite_lt]; simp] at this
  | x :: xs, [], s, t, f + 1, hx, hy, _ => by
    rw [Visits] at hy
    refine ⟨.greater, by simp only [lexLoop, hx.1, hy], ?_⟩
    have := LexIs.shorter (cmp := cmp) (xs := x :: xs) (ys := []) (by intro k _ hk; simp at hk)
    rwa [show compare (x :: xs).length ([] : List π).length = .gt from by rw [Nat.compare_eq_ite_lt]; simp] at this
  | x :: xs, y :: ys, s, t, f + 1, hx, hy, hf => by
    obtain ⟨h1, h2, s', h3, h4⟩ := hx
    obtain ⟨q1, q2, t', q3, q4⟩ := hy
    by_cases hc : cmp x y = .equal
    · obtain ⟨c, e, l⟩ := lexLoop_spec (cmp := cmp) (f := f) h4 q4 (by simpa using hf)
      exact ⟨c, by simp only [lexLoop, h1, q1, h2, q2, h3, q3, hc, ne_eq, not_true_eq_false, if_false, e], LexIs.cons_eq hc l⟩
    · exact ⟨cmp x y, by simp only [lexLoop, h1, q1, h2, q2, ne_eq, hc, not_false_eq_true, if_true], LexIs.cons_ne xs ys hc⟩

theorem lexSameLoop_spec {r : Rng σ ρ} {q : Rng τ π} {cmp : ρ → π → POrd} : ∀ {xs : List ρ} {ys : List π} {s : σ} {t : τ} {f : Nat},
    Visits r s xs → Visits q t ys → xs.length = ys.length → xs.length < f → ∃ c, lexSameLoop r q cmp f s t = some (.ok c) ∧ LexIs cmp xs ys c
  | _, _, _, _, 0, _, _, _, hf => by omega
  | [], [], s, t, f + 1, hx, hy, _, _ => by
    rw [Visits] at hx
    exact ⟨.equal, by simp only [lexSameLoop, hx], LexIs.shorter (by intro k hk; simp at hk)⟩
  | x :: xs, y :: ys, s, t, f + 1, hx, hy, hl, hf => by
    obtain ⟨h1, h2, s', h3, h4⟩ := hx
    obtain ⟨q1, q2, t', q3, q4⟩ := hy
    by_cases hc : cmp x y = .equal
    · obtain ⟨c, e, l⟩ := lexSameLoop_spec (cmp := cmp) (f := f) h4 q4 (by simpa using hl) (by simpa using hf)
      exact ⟨c, by simp only [lexSameLoop, h1, h2, q2, h3, q3, hc, ne_eq, not_true_eq_false, if_false, e], LexIs.cons_eq hc l⟩
    · exact ⟨cmp x y, by simp only [lexSameLoop, h1, h2, q2, ne_eq, hc, not_false_eq_true, if_true], LexIs.cons_ne xs ys hc⟩

theorem sameElements_nil (eq : ρ → π → Bool) : SameElements eq [] [] := ⟨rfl, by intro k hk; simp at hk⟩

theorem sameElements_cons {eq : ρ → π → Bool} {x : ρ} {y : π} {xs : List ρ} {ys : List π} :
    SameElements eq (x :: xs) (y :: ys) ↔ eq x y = true ∧ SameElements eq xs ys := by
  constructor
  · rintro ⟨h1, h2⟩
    refine ⟨h2 0 (by simp) (by simp), by simpa using h1, fun k hx hy => ?_⟩
    have := h2 (k + 1) (by simpa using hx) (by simpa using hy)
    simpa using this
  · rintro ⟨h0, h1, h2⟩
    refine ⟨by simpa using h1, fun k hx hy => ?_⟩
    cases k with
    | zero => exact h0
    | succ k => exact h2 k (by simpa using hx) (by simpa using hy)

theorem equalLoop_spec {r : Rng σ ρ} {q : Rng τ π} {eq : ρ → π → Bool} : ∀ {xs : List ρ} {ys : List π} {s : σ} {t : τ} {f : Nat},
    Visits r s xs → Visits q t ys → xs.length < f → ∃ c, equalLoop r q eq f s t = some (.ok c) ∧ (c = true ↔ SameElements eq xs ys)
  | _, _, _, _, 0, _, _, hf => by omega
  | [], [], s, t, f + 1, hx, hy, _ => by
    rw [Visits] at hx hy
    exact ⟨true, by simp only [equalLoop, hx, hy], by simp [sameElements_nil]⟩
  | [], y :: ys, s, t, f + 1, hx, hy, _ => by
    rw [Visits] at hx
    exact ⟨false, by simp only [equalLoop, hx, hy.1], by simp [SameElements]⟩
  | x :: xs, [], s, t, f + 1, hx, hy, _ => by
    rw [Visits] at hy
    exact ⟨false, by simp only [equalLoop, hx.1, hy], by simp [SameElements]⟩
  | x :: xs, y :: ys, s, t, f + 1, hx, hy, hf => by
    obtain ⟨h1, h2, s', h3, h4⟩ := hx
    obtain ⟨q1, q2, t', q3, q4⟩ := hy
    cases hc : eq x y with
    | true =>
      obtain ⟨c, e, l⟩ := equalLoop_spec (eq := eq) (f := f) h4 q4 (by simpa using hf)
      refine ⟨c, by simp [equalLoop, h1, q1, h2, q2, h3, q3, hc, e], ?_⟩
      rw [sameElements_cons, l]
      simp [hc]
    | false =>
      refine ⟨false, by simp [equalLoop, h1, q1, h2, q2, hc], ?_⟩
      rw [sameElements_cons]
      simp [hc]

theorem equalSameLoop_spec {r : Rng σ ρ} {q : Rng τ π} {eq : ρ → π → Bool} : ∀ {xs : List ρ} {ys : List π} {s : σ} {t : τ} {f : Nat},
    Visits r s xs → Visits q t ys → xs.length = ys.length → xs.length < f →
    ∃ c, equalSameLoop r q eq f s t = some (.ok c) ∧ (c = true ↔ SameElements eq xs ys)
  | _, _, _, _, 0, _, _, _, hf => by omega
  | [], [], s, t, f + 1, hx, hy, _, _ => by
    rw [Visits] at hx
    exact ⟨true, by simp only [equalSameLoop, hx], by simp [sameElements_nil]⟩
  | x :: xs, y :: ys, s, t, f + 1, hx, hy, hl, hf => by
    obtain ⟨h1, h2, s', h3, h4⟩ := hx
    obtain ⟨q1, q2, t', q3, q4⟩ := hy
    cases hc : eq x y with
    | true =>
      obtain ⟨c, e, l⟩ := equalSameLoop_spec (eq := eq) (f := f) h4 q4 (by simpa using hl) (by simpa using hf)
      refine ⟨c, by simp [equalSameLoop, h1, h2, q2, h3, q3, hc, e], ?_⟩
      rw [sameElements_cons, l]
      simp [hc]
    | false =>
      refine ⟨false, by simp [equalSameLoop, h1, h2, q2, hc], ?_⟩
      rw [sameElements_cons]
      simp [hc]

/-! ## The theorems -/

/-- `lexicographical_compare` gives the dictionary order, for ranges of any kinds and any comparison. -/
theorem C47_lexicographical_compare {R : Range σ ρ} {Q : Range τ π} {xs : List ρ} {ys : List π} (hR : R.Is xs) (hQ : Q.Is ys) (cmp : ρ → π → POrd)
    {f : Nat} (hf : xs.length < f) : ∃ c, lexCompare R Q cmp f = some (.ok c) ∧ LexIs cmp xs ys c :=
  lexLoop_spec hR.1 hQ.1 hf

/-- `lexicographical_compare_assume_same_size` gives the dictionary order of ranges that have the same size. -/
theorem C47_lexicographical_compare_assume_same_size {R : Range σ ρ} {Q : Range τ π} {xs : List ρ} {ys : List π} (hR : R.Is xs) (hQ : Q.Is ys)
    (cmp : ρ → π → POrd) (hl : xs.length = ys.length) {f : Nat} (hf : xs.length < f) :
    ∃ c, lexSame R Q cmp f = some (.ok c) ∧ LexIs cmp xs ys c := by
  obtain ⟨c, e, l⟩ := lexSameLoop_spec (cmp := cmp) hR.1 hQ.1 hl hf
  refine ⟨c, ?_, l⟩
  rw [lexSame]
  split
  · rename_i n m hn hm
    rw [if_pos (by rw [hR.2 n hn, hQ.2 m hm, hl]), e]
  · exact e

/-- `shortlex_compare` puts the shorter range first, ranges of the same length are in dictionary order. -/
theorem C47_shortlex_compare {R : Range σ ρ} {Q : Range τ π} {xs : List ρ} {ys : List π} (hR : R.Is xs) (hQ : Q.Is ys) (cmp : ρ → π → POrd)
    (sR : R.size?.isSome) (sQ : Q.size?.isSome) {f : Nat} (hf : xs.length < f) :
    ∃ c, shortlexCompare R Q cmp f = some (.ok c) ∧ ShortlexIs cmp xs ys c := by
  obtain ⟨n, hn⟩ := Option.isSome_iff_exists.1 sR
  obtain ⟨m, hm⟩ := Option.isSome_iff_exists.1 sQ
  have en := hR.2 n hn
  have em := hQ.2 m hm
  subst en em
  rcases Nat.lt_trichotomy xs.length ys.length with h | h | h
  · refine ⟨.less, ?_, fun _ => rfl, fun h' => by omega, fun h' => by omega⟩
    have e : compare xs.length ys.length = .lt := by rw [Nat.compare_eq_ite_lt, if_pos h]
    simp [shortlexCompare, hn, hm, e, POrd.ofOrdering]
  · obtain ⟨c, e, l⟩ := C47_lexicographical_compare_assume_same_size hR hQ cmp h hf
    refine ⟨c, ?_, fun _ => by omega, fun _ => by omega, fun _ => l⟩
    have e' : compare xs.length ys.length = .eq := by rw [Nat.compare_eq_ite_lt, if_neg (by omega), if_neg (by omega)]
    simp [shortlexCompare, hn, hm, e', e]
  · refine ⟨.greater, ?_, fun _ => by omega, fun _ => rfl, fun _ => by omega⟩
    have e : compare xs.length ys.length = .gt := by rw [Nat.compare_eq_ite_lt, if_neg (by omega), if_pos h]
    simp [shortlexCompare, hn, hm, e, POrd.ofOrdering]

/-- `equal` decides whether the ranges have the same length and equal elements, with or without sizes. -/
theorem C47_equal {R : Range σ ρ} {Q : Range τ π} {xs : List ρ} {ys : List π} (hR : R.Is xs) (hQ : Q.Is ys) (eq : ρ → π → Bool)
    {f : Nat} (hf : xs.length < f) : ∃ c, equal R Q eq f = some (.ok c) ∧ (c = true ↔ SameElements eq xs ys) := by
  rw [equal]
  split
  · rename_i n m hn hm
    have en := hR.2 n hn
    have em := hQ.2 m hm
    subst en em
    by_cases hl : xs.length = ys.length
    · rw [if_pos hl, equalSame, hn, hm]
      dsimp only
      rw [if_pos hl]
      exact equalSameLoop_spec hR.1 hQ.1 hl hf
    · rw [if_neg hl]
      exact ⟨false, rfl, by simp [SameElements, hl]⟩
  · exact equalLoop_spec hR.1 hQ.1 hf

/-- `equal_assume_same_size` decides equality of ranges that have the same size. -/
theorem C47_equal_assume_same_size {R : Range σ ρ} {Q : Range τ π} {xs : List ρ} {ys : List π} (hR : R.Is xs) (hQ : Q.Is ys) (eq : ρ → π → Bool)
    (hl : xs.length = ys.length) {f : Nat} (hf : xs.length < f) : ∃ c, equalSame R Q eq f = some (.ok c) ∧ (c = true ↔ SameElements eq xs ys) := by
  obtain ⟨c, e, l⟩ := equalSameLoop_spec (eq := eq) hR.1 hQ.1 hl hf
  refine ⟨c, ?_, l⟩
  rw [equalSame]
  split
  · rename_i n m hn hm
    rw [if_pos (by rw [hR.2 n hn, hQ.2 m hm, hl]), e]
  · exact e

/-- For `operator==` on the elements this is equality of the sequences. -/
theorem C47_equal_eq [DecidableEq ρ] {R : Range σ ρ} {Q : Range τ ρ} {xs ys : List ρ} (hR : R.Is xs) (hQ : Q.Is ys)
    {f : Nat} (hf : xs.length < f) : equal R Q (fun x y => decide (x = y)) f = some (.ok (decide (xs = ys))) := by
  obtain ⟨c, e, l⟩ := C47_equal hR hQ (fun x y => decide (x = y)) hf
  rw [e]
  congr 2
  rw [Bool.eq_iff_iff, l, decide_eq_true_iff]
  constructor
  · rintro ⟨h1, h2⟩
    exact List.ext_getElem h1 fun i h h' => of_decide_eq_true (h2 i h h')
  · rintro rfl
    exact ⟨rfl, fun k _ _ => decide_eq_true rfl⟩

/-! ## The orders -/

/-- Exchanging the arguments exchanges `less` and `greater`, if that is so for the elements. -/
theorem C47_antisymmetric {cmp : ρ → π → POrd} {cmp' : π → ρ → POrd} (h : ∀ x y, cmp' y x = (cmp x y).swap) {xs : List ρ} {ys : List π} {c : POrd}
    (l : LexIs cmp xs ys c) : LexIs cmp' ys xs c.swap := by
  have swap_eq : ∀ c : POrd, c.swap = .equal ↔ c = .equal := by intro c; cases c <;> simp [POrd.swap]
  cases l with
  | differ i hx hy before here =>
    rw [← h]
    exact LexIs.differ i hy hx (fun k hk => by rw [h, before k hk]; rfl) (by rw [h, ne_eq, swap_eq]; exact here)
  | shorter before =>
    have := LexIs.shorter (cmp := cmp') (xs := ys) (ys := xs) fun k hy hx => by rw [h, before k hx hy]; rfl
    have e : POrd.ofOrdering (compare ys.length xs.length) = (POrd.ofOrdering (compare xs.length ys.length)).swap := by
      rw [Nat.compare_eq_ite_lt, Nat.compare_eq_ite_lt]
      split_ifs <;> first | omega | rfl
    rwa [e] at this

/-- What is asked of `<=>` on the elements: `less` is transitive, also through equivalent elements. -/
structure POrd.Trans (cmp : ρ → ρ → POrd) : Prop where
  swap : ∀ x y, cmp y x = (cmp x y).swap
  eq_eq : ∀ x y z, cmp x y = .equal → cmp y z = .equal → cmp x z = .equal
  eq_lt : ∀ x y z, cmp x y = .equal → cmp y z = .less → cmp x z = .less
  lt_eq : ∀ x y z, cmp x y = .less → cmp y z = .equal → cmp x z = .less
  lt_lt : ∀ x y z, cmp x y = .less → cmp y z = .less → cmp x z = .less

theorem lexIs_cons {cmp : ρ → π → POrd} {x : ρ} {y : π} {xs : List ρ} {ys : List π} {c : POrd} :
    LexIs cmp (x :: xs) (y :: ys) c ↔ (cmp x y ≠ .equal ∧ c = cmp x y) ∨ (cmp x y = .equal ∧ LexIs cmp xs ys c) := by
  constructor
  · intro l
    by_cases h : cmp x y = .equal
    · refine Or.inr ⟨h, ?_⟩
      cases l with
      | differ i hx hy before here =>
        cases i with
        | zero => exact absurd h here
        | succ i =>
          have := LexIs.differ (cmp := cmp) (xs := xs) (ys := ys) i (by simpa using hx) (by simpa using hy)
            (fun k hk => before (k + 1) (by omega)) (by simpa using here)
          simpa using this
      | shorter before =>
        have := LexIs.shorter (cmp := cmp) (xs := xs) (ys := ys) fun k hx hy => before (k + 1) (by simpa using hx) (by simpa using hy)
        have e : compare (xs.length + 1) (ys.length + 1) = compare xs.length ys.length := by
          rw [Nat.compare_eq_ite_lt, Nat.compare_eq_ite_lt]; simp only [Nat.add_lt_add_iff_right]
        simpa only [List.length_cons, e] using this
    · exact Or.inl ⟨h, l.unique (LexIs.cons_ne xs ys h)⟩
  · rintro (⟨h, rfl⟩ | ⟨h, l⟩)
    · exact LexIs.cons_ne xs ys h
    · exact LexIs.cons_eq h l

theorem lexIs_nil_nil {cmp : ρ → π → POrd} {c : POrd} : LexIs cmp [] [] c ↔ c = .equal := by
  have h : LexIs cmp [] [] .equal := LexIs.shorter (by intro k hk; simp at hk)
  exact ⟨fun l => l.unique h, fun e => e ▸ h⟩

theorem lexIs_nil_cons {cmp : ρ → π → POrd} {c : POrd} {y : π} {ys : List π} : LexIs cmp [] (y :: ys) c ↔ c = .less := by
  have h : LexIs cmp [] (y :: ys) .less := by
    have := LexIs.shorter (cmp := cmp) (xs := []) (ys := y :: ys) (by intro k hk; simp at hk)
    rwa [show compare ([] : List ρ).length (y :: ys).length = .lt from by rw [Nat.compare_eq_ite_lt]; simp] at this
  exact ⟨fun l => l.unique h, fun e => e ▸ h⟩

theorem lexIs_cons_nil {cmp : ρ → π → POrd} {c : POrd} {x : ρ} {xs : List ρ} : LexIs cmp (x :: xs) [] c ↔ c = .greater := by
  have h : LexIs cmp (x :: xs) [] .greater := by
    have := LexIs.shorter (cmp := cmp) (xs := x :: xs) (ys := []) (by intro k _ hk; simp at hk)
    rwa [show compare (x :: xs).length ([] : List π).length = .gt from by rw [Nat.compare_eq_ite_lt]; simp] at this
  exact ⟨fun l => l.unique h, fun e => e ▸ h⟩

/-- The dictionary order inherits all of that from the elements. -/
theorem C47_transitive {cmp : ρ → ρ → POrd} (h : POrd.Trans cmp) : ∀ {xs ys zs : List ρ} {c d : POrd},
    LexIs cmp xs ys c → LexIs cmp ys zs d → (c = .equal ∨ c = .less) → (d = .equal ∨ d = .less) →
    LexIs cmp xs zs (if c = .equal ∧ d = .equal then .equal else .less)
  | [], [], zs, c, d, l, l', hc, hd => by
    rw [lexIs_nil_nil] at l
    subst l
    cases zs with
    | nil => rw [lexIs_nil_nil] at l' ⊢; subst l'; rfl
    | cons z zs => rw [lexIs_nil_cons] at l' ⊢; subst l'; rfl
  | [], y :: ys, [], c, d, l, l', hc, hd => by
    rw [lexIs_cons_nil] at l'
    subst l'
    simp at hd
  | [], y :: ys, z :: zs, c, d, l, l', hc, hd => by
    rw [lexIs_nil_cons] at l ⊢
    subst l
    rfl
  | x :: xs, [], zs, c, d, l, l', hc, hd => by
    rw [lexIs_cons_nil] at l
    subst l
    simp at hc
  | x :: xs, y :: ys, [], c, d, l, l', hc, hd => by
    rw [lexIs_cons_nil] at l'
    subst l'
    simp at hd
  | x :: xs, y :: ys, z :: zs, c, d, l, l', hc, hd => by
    rw [lexIs_cons] at l l' ⊢
    rcases l with ⟨h1, rfl⟩ | ⟨h1, l⟩
    · have h1' : cmp x y = .less := hc.resolve_left h1
      rcases l' with ⟨h2, rfl⟩ | ⟨h2, l'⟩
      · have h2' : cmp y z = .less := hd.resolve_left h2
        have := h.lt_lt x y z h1' h2'
        exact Or.inl ⟨by rw [this]; decide, by rw [if_neg (fun e => h1 e.1), this]⟩
      · have := h.lt_eq x y z h1' h2
        exact Or.inl ⟨by rw [this]; decide, by rw [if_neg (fun e => h1 e.1), this]⟩
    · rcases l' with ⟨h2, rfl⟩ | ⟨h2, l'⟩
      · have h2' : cmp y z = .less := hd.resolve_left h2
        have := h.eq_lt x y z h1 h2'
        exact Or.inl ⟨by rw [this]; decide, by rw [if_neg (fun e => h2 e.2), this]⟩
      · exact Or.inr ⟨h.eq_eq x y z h1 h2, C47_transitive h l l' hc hd⟩

/-- The same for the order by length. -/
theorem C47_shortlex_antisymmetric {cmp : ρ → π → POrd} {cmp' : π → ρ → POrd} (h : ∀ x y, cmp' y x = (cmp x y).swap) {xs : List ρ} {ys : List π} {c : POrd}
    (l : ShortlexIs cmp xs ys c) : ShortlexIs cmp' ys xs c.swap :=
  ⟨fun hl => by rw [l.2.1 hl]; rfl, fun hl => by rw [l.1 hl]; rfl, fun hl => C47_antisymmetric h (l.2.2 hl.symm)⟩

theorem C47_shortlex_transitive {cmp : ρ → ρ → POrd} (h : POrd.Trans cmp) {xs ys zs : List ρ} {c d : POrd}
    (l : ShortlexIs cmp xs ys c) (l' : ShortlexIs cmp ys zs d) (hc : c = .equal ∨ c = .less) (hd : d = .equal ∨ d = .less) :
    ShortlexIs cmp xs zs (if c = .equal ∧ d = .equal then .equal else .less) := by
  have n1 : xs.length ≤ ys.length := by
    by_contra hn
    have := l.2.1 (by omega)
    subst this
    simp at hc
  have n2 : ys.length ≤ zs.length := by
    by_contra hn
    have := l'.2.1 (by omega)
    subst this
    simp at hd
  refine ⟨fun hl => ?_, fun hl => by omega, fun hl => C47_transitive h (l.2.2 (by omega)) (l'.2.2 (by omega)) hc hd⟩
  by_cases hl' : xs.length < ys.length
  · rw [l.1 hl']; rfl
  · rw [l'.1 (by omega)]; simp

/-- A range compares equal in dictionary order exactly if all elements do, so the two ways of comparing agree. -/
theorem C47_equal_consistent {cmp : ρ → π → POrd} {eq : ρ → π → Bool} (h : ∀ x y, eq x y = true ↔ cmp x y = .equal) {xs : List ρ} {ys : List π} {c : POrd}
    (l : LexIs cmp xs ys c) : c = .equal ↔ SameElements eq xs ys := by
  cases l with
  | differ i hx hy before here =>
    constructor
    · intro e; exact absurd e here
    · intro e; exact absurd ((h _ _).1 (e.2 i hx hy)) here
  | shorter before =>
    have e : POrd.ofOrdering (compare xs.length ys.length) = .equal ↔ xs.length = ys.length := by
      rw [Nat.compare_eq_ite_lt]
      split_ifs <;> simp [POrd.ofOrdering] <;> omega
    rw [e]
    exact ⟨fun hl => ⟨hl, fun k hx hy => (h _ _).2 (before k hx hy)⟩, fun hs => hs.1⟩

/-! ## Examples -/

/-- A range in memory, with or without a size. -/
def memAsRange {α : Type} (m : Algo.Mem α) (first last : Nat) (sized : Bool) : Range Nat α :=
  ⟨(memRange m first last).toRng, first, if sized then some (last - first) else none⟩

theorem memAsRange_is {α : Type} {m : Algo.Mem α} {first : Nat} {xs : List α} (h : m.Seg first xs) (sized : Bool) :
    (memAsRange m first (first + xs.length) sized).Is xs := by
  refine ⟨(memRange_indexed h).visits, fun n hn => ?_⟩
  cases sized
  · cases hn
  · simp only [memAsRange, if_true, Option.some.injEq] at hn; omega

/-- `<=>` of natural numbers where 7 is unordered with everything, like a NaN. -/
def cmpNaN (x y : Nat) : POrd := if x = 7 ∨ y = 7 then .unordered else .ofOrdering (compare x y)

example : ∃ (R Q : Range Nat Nat) (xs ys : List Nat), R.Is xs ∧ Q.Is ys ∧ R.size?.isSome ∧ Q.size? = none ∧
    lexCompare R Q cmpNaN 5 = some (.ok .less) ∧ lexCompare Q R cmpNaN 5 = some (.ok .greater) ∧ equal R Q (fun x y => decide (x = y)) 5 = some (.ok false) ∧
    xs = [1, 2] ∧ ys = [1, 2, 7] := by
  refine ⟨memAsRange (fun i => [1, 2][i]?) 0 2 true, memAsRange (fun i => [1, 2, 7][i]?) 0 3 false, [1, 2], [1, 2, 7], ?_, ?_, ?_, ?_, ?_, ?_, ?_, rfl, rfl⟩
  · exact memAsRange_is (first := 0) (xs := [1, 2]) (by intro i h; simp [List.getElem?_eq_getElem h]) true
  · exact memAsRange_is (first := 0) (xs := [1, 2, 7]) (by intro i h; simp [List.getElem?_eq_getElem h]) false
  all_goals decide +kernel

example : LexIs cmpNaN [1, 7, 3] [1, 2] .unordered :=
  LexIs.differ (cmp := cmpNaN) (xs := [1, 7, 3]) (ys := [1, 2]) 1 (by decide) (by decide) (by intro k hk; interval_cases k; rfl) (by decide)

example : POrd.Trans fun x y : Nat => POrd.ofOrdering (compare x y) := by
  have e : ∀ x y : Nat, POrd.ofOrdering (compare x y) = if x < y then .less else if y < x then .greater else .equal := by
    intro x y
    rw [Nat.compare_eq_ite_lt]
    split_ifs <;> rfl
  constructor <;> intro x y <;> simp only [e]
  · split_ifs <;> first | omega | rfl
  all_goals intro z; split_ifs <;> first | omega | simp

end Verif.Views
