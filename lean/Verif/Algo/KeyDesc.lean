import Verif.Algo.Order

/-!
# Structured sort keys

Specification: how the key of an element is built from booleans, unsigned numbers, tuples and
ranges, and the order of such keys.
-/

namespace Verif.Algo

variable {α : Type}

/-- First by `a`, then by `b`. -/
def lexlt (a b : α → α → Bool) (x y : α) : Bool := a x y || (!a y x && b x y)

/-- By `c i`, then by `c (i + 1)`, for `n` components. -/
def lexUpto (c : Nat → α → α → Bool) : Nat → Nat → α → α → Bool
  | 0, _ => fun _ _ => false
  | n + 1, i => lexlt (c i) (lexUpto c n (i + 1))

/-- Comparison of component `i` of two ranges: a missing component is less than any other. -/
def cellLess (len : α → Nat) (lt : α → α → Bool) (i : Nat) (x y : α) : Bool :=
  if i < len x ∧ i < len y then lt x y else decide (len x ≤ i ∧ i < len y)

/-- How the key of an element is structured. A `num` is the unsigned radix key of some number of
bytes. A range of known size carries that size. Components of a range beyond its length and
components of a tuple beyond its size are not used. -/
inductive Desc (α : Type) : Type
  | bool (f : α → Bool)
  | num (bytes : Nat) (f : α → Nat)
  | list (fixed : Option Nat) (len : α → Nat) (elem : Nat → Desc α)
  | tuple (size : Nat) (comp : Nat → Desc α)

namespace Desc

/-- The order of keys: `false` before `true`, numbers by value, tuples and ranges lexicographically. -/
def less : Desc α → α → α → Bool
  | bool f => fun x y => !f x && f y
  | num _ f => fun x y => decide (f x < f y)
  | list _ len elem => fun x y => lexUpto (fun i => cellLess len ((elem i).less) i) (max (len x) (len y)) 0 x y
  | tuple n comp => lexUpto (fun i => (comp i).less) n 0

/-- Equality of keys. -/
def same : Desc α → α → α → Prop
  | bool f => fun x y => f x = f y
  | num _ f => fun x y => f x = f y
  | list _ len elem => fun x y => len x = len y ∧ ∀ i, i < len x → (elem i).same x y
  | tuple n comp => fun x y => ∀ i, i < n → (comp i).same x y

/-- Numbers fit their type, the type has a width that exists, and known sizes are right. -/
def WF : Desc α → Prop
  | bool _ => True
  | num b f => (b = 1 ∨ b % 2 = 0) ∧ ∀ x, f x < 256 ^ b
  | list fixed len elem => (∀ n, fixed = some n → ∀ x, len x = n) ∧ ∀ i, (elem i).WF
  | tuple _ comp => ∀ i, (comp i).WF

end Desc

/-! ## The orders are strict weak orders -/

theorem lexlt_strictWeak {a b : α → α → Bool} (ha : StrictWeak a) (hb : StrictWeak b) : StrictWeak (lexlt a b) where
  asymm := by
    intro x y h
    simp only [lexlt, Bool.or_eq_true, Bool.and_eq_true, Bool.not_eq_true', Bool.or_eq_false_iff, Bool.and_eq_false_iff] at *
    rcases h with h | ⟨h1, h2⟩
    · exact ⟨ha.asymm h, .inl (by simp [h])⟩
    · exact ⟨h1, .inr (hb.asymm h2)⟩
  negTrans := by
    intro x y z h1 h2
    simp only [lexlt, Bool.or_eq_false_iff, Bool.and_eq_false_iff, Bool.not_eq_false'] at *
    obtain ⟨h1a, h1b⟩ := h1
    obtain ⟨h2a, h2b⟩ := h2
    refine ⟨ha.negTrans h1a h2a, ?_⟩
    rcases h1b with h1b | h1b
    · exact .inl (ha.lt_of_lt_of_le h1b h2a)
    · rcases h2b with h2b | h2b
      · exact .inl (ha.lt_of_le_of_lt h1a h2b)
      · exact .inr (hb.negTrans h1b h2b)

theorem const_strictWeak : StrictWeak (fun _ _ : α => false) := ⟨fun h => (by cases h), fun _ _ => rfl⟩

theorem lexUpto_strictWeak {c : Nat → α → α → Bool} (h : ∀ i, StrictWeak (c i)) : ∀ n i, StrictWeak (lexUpto c n i)
  | 0, _ => const_strictWeak
  | n + 1, i => lexlt_strictWeak (h i) (lexUpto_strictWeak h n (i + 1))

theorem cellLess_strictWeak {len : α → Nat} {lt : α → α → Bool} (h : StrictWeak lt) (i : Nat) : StrictWeak (cellLess len lt i) where
  asymm := by
    intro x y hxy
    simp only [cellLess] at *
    by_cases h1 : i < len x <;> by_cases h2 : i < len y <;> simp only [h1, h2, and_self, and_true, true_and, and_false, false_and, if_true, if_false, decide_eq_true_eq, decide_eq_false_iff_not] at * <;> first | omega | exact h.asymm hxy
  negTrans := by
    intro x y z hyx hzy
    simp only [cellLess] at *
    by_cases h1 : i < len x <;> by_cases h2 : i < len y <;> by_cases h3 : i < len z <;>
      simp only [h1, h2, h3, and_self, and_true, true_and, and_false, false_and, if_true, if_false, decide_eq_true_eq, decide_eq_false_iff_not] at hyx hzy ⊢ <;> first | omega | exact h.negTrans hyx hzy

/-- Components that are missing in both do not matter. -/
theorem lexUpto_absent {len : α → Nat} {lt : Nat → α → α → Bool} {x y : α} : ∀ (n i : Nat), max (len x) (len y) ≤ i →
    lexUpto (fun i => cellLess len (lt i) i) n i x y = false
  | 0, _, _ => rfl
  | n + 1, i, h => by
    rw [lexUpto, lexlt, lexUpto_absent n (i + 1) (by omega)]
    have : cellLess len (lt i) i x y = false := by
      rw [cellLess, if_neg (by omega)]; simp only [decide_eq_false_iff_not]; omega
    simp [this]

theorem lexUpto_extend {len : α → Nat} {lt : Nat → α → α → Bool} {x y : α} : ∀ (n i k : Nat), max (len x) (len y) ≤ i + n →
    lexUpto (fun i => cellLess len (lt i) i) (n + k) i x y = lexUpto (fun i => cellLess len (lt i) i) n i x y
  | 0, i, k, h => by rw [lexUpto_absent _ _ (by omega)]; rfl
  | n + 1, i, k, h => by
    rw [show n + 1 + k = (n + k) + 1 by omega, lexUpto, lexUpto, lexlt, lexlt, lexUpto_extend n (i + 1) k (by omega)]

theorem Desc.less_list {fixed : Option Nat} {len : α → Nat} {elem : Nat → Desc α} {x y : α} {n : Nat} (h : max (len x) (len y) ≤ n) :
    (Desc.list fixed len elem).less x y = lexUpto (fun i => cellLess len ((elem i).less) i) n 0 x y := by
  rw [Desc.less]
  obtain ⟨k, rfl⟩ := Nat.exists_eq_add_of_le h
  rw [lexUpto_extend (lt := fun i => (elem i).less) _ 0 k (by omega)]

theorem Desc.less_strictWeak : ∀ d : Desc α, StrictWeak d.less
  | .bool f => ⟨fun {x y} h => by simp only [less] at *; revert h; cases f x <;> cases f y <;> simp,
      fun {x y z} h1 h2 => by simp only [less] at *; revert h1 h2; cases f x <;> cases f y <;> cases f z <;> simp⟩
  | .num _ f => ⟨fun {x y} h => by simp only [less, decide_eq_true_eq, decide_eq_false_iff_not] at *; omega,
      fun {x y z} h1 h2 => by simp only [less, decide_eq_false_iff_not] at *; omega⟩
  | .tuple n comp => lexUpto_strictWeak (fun i => (comp i).less_strictWeak) n 0
  | .list fixed len elem => by
    have hs := fun n => lexUpto_strictWeak (c := fun i => cellLess len ((elem i).less) i) (fun i => cellLess_strictWeak (elem i).less_strictWeak i) n 0
    constructor
    · intro x y h
      rw [less_list (n := max (len x) (len y)) (by omega)] at h
      rw [less_list (n := max (len x) (len y)) (by omega)]
      exact (hs _).asymm h
    · intro x y z h1 h2
      rw [less_list (n := max (len x) (max (len y) (len z))) (by omega)] at h1 h2 ⊢
      exact (hs _).negTrans h1 h2

/-! ## Equal keys are equivalent -/

theorem lexUpto_equiv {c : Nat → α → α → Bool} {x y : α} : ∀ (n i : Nat),
    (lexUpto c n i x y = false ∧ lexUpto c n i y x = false) ↔ ∀ j, i ≤ j → j < i + n → c j x y = false ∧ c j y x = false
  | 0, i => ⟨fun _ j h1 h2 => by omega, fun _ => ⟨rfl, rfl⟩⟩
  | n + 1, i => by
    have ih := lexUpto_equiv (c := c) (x := x) (y := y) n (i + 1)
    simp only [lexUpto, lexlt, Bool.or_eq_false_iff, Bool.and_eq_false_iff, Bool.not_eq_false']
    constructor
    · rintro ⟨⟨h1, h2⟩, h3, h4⟩ j hij hj
      by_cases he : j = i
      · subst he; exact ⟨h1, h3⟩
      · have h2' := h2.resolve_left (by simp [h3])
        have h4' := h4.resolve_left (by simp [h1])
        exact ih.1 ⟨h2', h4'⟩ j (by omega) (by omega)
    · intro h
      have h0 := h i (Nat.le_refl _) (by omega)
      have hr := ih.2 fun j h1 h2 => h j (by omega) (by omega)
      exact ⟨⟨h0.1, .inr hr.1⟩, h0.2, .inr hr.2⟩

/-- Keys are equal exactly when neither is less. -/
theorem Desc.same_iff : ∀ (d : Desc α) (x y : α), d.same x y ↔ d.less x y = false ∧ d.less y x = false
  | .bool f, x, y => by simp only [same, less]; cases f x <;> cases f y <;> simp
  | .num _ f, x, y => by simp only [same, less, decide_eq_false_iff_not]; omega
  | .tuple n comp, x, y => by
    simp only [same, less, lexUpto_equiv, Nat.zero_le, true_implies, Nat.zero_add]
    exact forall_congr' fun i => forall_congr' fun _ => (comp i).same_iff x y
  | .list fixed len elem, x, y => by
    rw [less_list (n := max (len x) (len y) + 1) (by omega), less_list (n := max (len x) (len y) + 1) (by omega), lexUpto_equiv]
    simp only [same, Nat.zero_le, true_implies, Nat.zero_add]
    constructor
    · rintro ⟨hl, he⟩ j hj
      by_cases hjl : j < len x
      · rw [cellLess, cellLess, if_pos ⟨hjl, hl ▸ hjl⟩, if_pos ⟨hl ▸ hjl, hjl⟩]
        exact ((elem j).same_iff x y).1 (he j hjl)
      · rw [cellLess, cellLess, if_neg (by omega), if_neg (by omega)]
        simp only [decide_eq_false_iff_not]; omega
    · intro h
      have hl : len x = len y := by
        by_contra hne
        have := h (min (len x) (len y)) (by omega)
        rw [cellLess, cellLess, if_neg (by omega), if_neg (by omega)] at this
        simp only [decide_eq_false_iff_not] at this
        omega
      refine ⟨hl, fun i hi => ?_⟩
      have := h i (by omega)
      rw [cellLess, cellLess, if_pos ⟨hi, hl ▸ hi⟩, if_pos ⟨hl ▸ hi, hi⟩] at this
      exact ((elem i).same_iff x y).2 this

/-! ## Sanity of the order of ranges -/

/-- For lists of numbers the order is the usual lexicographic order. -/
theorem Desc.less_list_nat (x y : List Nat) :
    (Desc.list none List.length (fun i => .num 8 (fun l => l.getD i 0))).less x y = true ↔ List.Lex (· < ·) x y := by
  have key : ∀ (n : Nat) (x y p q : List Nat), p.length = q.length → max x.length y.length ≤ n →
      (lexUpto (fun i => cellLess List.length ((Desc.num 8 (fun l : List Nat => l.getD i 0)).less) i) n p.length (p ++ x) (q ++ y) = true ↔ List.Lex (· < ·) x y) := by
    intro n
    induction n with
    | zero =>
      intro x y p q hpq hn
      obtain rfl : x = [] := List.eq_nil_of_length_eq_zero (by omega)
      obtain rfl : y = [] := List.eq_nil_of_length_eq_zero (by omega)
      simp [lexUpto]
    | succ n ih =>
      intro x y p q hpq hn
      match x, y with
      | [], [] =>
        simp only [List.append_nil, List.not_lex_nil, iff_false, Bool.not_eq_true]
        exact lexUpto_absent (lt := fun i => (Desc.num 8 (fun l : List Nat => l.getD i 0)).less) _ _ (by omega)
      | [], b :: y =>
        simp only [lexUpto, lexlt, cellLess, List.append_nil, List.length_append, List.length_cons]
        rw [if_neg (by omega), decide_eq_true (by omega)]
        simp
      | a :: x, [] =>
        simp only [lexUpto, lexlt, cellLess, List.append_nil, List.length_append, List.length_cons]
        rw [if_neg (by omega), if_neg (by omega), decide_eq_false (by omega), decide_eq_true (by omega)]
        simp
      | a :: x, b :: y =>
        have hx : (p ++ a :: x).getD p.length 0 = a := by simp [List.getD_eq_getElem?_getD]
        have hy : (q ++ b :: y).getD p.length 0 = b := by rw [hpq]; simp [List.getD_eq_getElem?_getD]
        have := ih x y (p ++ [a]) (q ++ [b]) (by simp [hpq]) (by simp at hn; omega)
        rw [List.append_assoc, List.append_assoc, List.length_append] at this
        simp only [List.singleton_append, List.length_singleton] at this
        rw [lexUpto, lexlt, cellLess, cellLess, if_pos (by simp; omega), if_pos (by simp; omega)]
        simp only [Desc.less, hx, hy] at this ⊢
        rw [show List.Lex (· < ·) (a :: x) (b :: y) ↔ a < b ∨ (a = b ∧ List.Lex (· < ·) x y) from
            ⟨fun h => by cases h with | rel h => exact .inl h | cons h => exact .inr ⟨rfl, h⟩,
              fun h => by rcases h with h | ⟨rfl, h⟩; exacts [.rel h, .cons h]⟩, Bool.or_eq_true, Bool.and_eq_true, this, decide_eq_true_eq, Bool.not_eq_true', decide_eq_false_iff_not]
        constructor
        · rintro (h | ⟨h1, h2⟩)
          · exact .inl h
          · by_cases hab : a < b
            · exact .inl hab
            · exact .inr ⟨by omega, h2⟩
        · rintro (h | ⟨h1, h2⟩)
          · exact .inl h
          · exact .inr ⟨by omega, h2⟩
  have := key (max x.length y.length) x y [] [] rfl (Nat.le_refl _)
  rw [Desc.less]
  simpa only [List.nil_append, List.length_nil] using this

end Verif.Algo
