import Verif.Base.Hist
import Verif.Bounded.AssignProps
import Verif.Bounded.Exactly

/-!
# Programs over bounded integers (C98)

C11 is about one expression and C12 about one variable. Here are whole programs: any number of variables, each with its own declared range,
expressions with all binary operators, conditions, branches and loops. The claim is that replacing every bounded integer by the mathematical
integer that it holds changes nothing: same branches, same number of rounds, same final values. What can stop a program that compiles is a value
assigned to a variable outside of its range, or a zero divisor; nothing throws.

Modelled: the operators of source/bounded/arithmetic/*.cpp, source/bounded/minmax.cpp, abs.cpp, comparison.cpp and the assignment of
source/bounded/integer.cpp, through the definitions of the other files of this directory. The control flow is that of the language.
-/

namespace Verif.Bounded

open Verif

/-! ## The operators -/

/-- The binary operators and two functions of two arguments. -/
inductive Op2 where
  | add | sub | mul | div | mod | min | max | shl | shr | band
  deriving DecidableEq

/-- The overload that a use of the operator calls: source/bounded/arithmetic/plus.cpp, minus via `operators` (increment_decrement.cpp 24),
multiplies.cpp, divides.cpp, modulus.cpp, left_shift.cpp, right_shift.cpp, bitwise_and.cpp and source/bounded/minmax.cpp 98-138. -/
def Op2.run (W : Nat) : Op2 → BInt → BInt → Option (Res BInt)
  | .add => plus W
  | .sub => minus W
  | .mul => Bounded.mul W
  | .div => Bounded.div W
  | .mod => Bounded.mod W
  | .min => fun a b => extreme W .less a [b]
  | .max => fun a b => extreme W .greater a [b]
  | .shl => Bounded.shl W
  | .shr => Bounded.shr W
  | .band => bitAnd W

/-- The declared range of the type of the result, nothing if the operator is rejected for the two types: the compile-time parts of the same files.
`min` and `max` accept all types (minmax.cpp 66-71). -/
def Op2.ty (W : Nat) (A B : Rng) : Op2 → Option Rng
  | .add => plusTy W A B
  | .sub => minusTy W A B
  | .mul => mulTy W A B
  | .div => (divTy W A B).map (·.1)
  | .mod => (modTy W A B).map (·.1)
  | .min => some ⟨Min.min A.lo B.lo, Min.min A.hi B.hi⟩
  | .max => some ⟨Max.max A.lo B.lo, Max.max A.hi B.hi⟩
  | .shl => (shlTy W A B).map (·.1)
  | .shr => (shrTy W A B).map (·.1)
  | .band => (bitAndTy W A B).map (·.1)

/-- The same on mathematical integers; there is no quotient or remainder by zero. -/
def Op2.math (x y : Int) : Op2 → Option Int
  | .add => some (x + y)
  | .sub => some (x - y)
  | .mul => some (x * y)
  | .div => if y = 0 then none else some (x.tdiv y)
  | .mod => if y = 0 then none else some (x.tmod y)
  | .min => some (Min.min x y)
  | .max => some (Max.max x y)
  | .shl => some (x * 2 ^ y.toNat)
  | .shr => some (x / 2 ^ y.toNat)
  | .band => some (x.land y)

/-- Which types are excluded, as the library accepts them and computes something else (C02, C05, C07, C08). -/
def Op2.Safe (W : Nat) (A B : Rng) : Op2 → Prop
  | .mul => ∀ p ∈ [A.lo * B.lo, A.lo * B.hi, A.hi * B.lo, A.hi * B.hi], -(2 ^ (W - 1)) ≤ p
  | .mod => ¬ (B.lo ≤ -1 ∧ -1 ≤ B.hi ∧ ∃ n ∈ [31, 63, W - 1], A.lo = -(2 ^ n) ∧ Within n A ∧ Within n B)
  | .shl => (0 ≤ A.lo ∨ B.lo = B.hi) ∧ -(2 ^ (W - 1)) ≤ A.lo * 2 ^ B.lo.toNat ∧ A.hi * 2 ^ B.hi.toNat < 2 ^ (W - 1) ∧
      (A.lo = 0 → A.hi = 0 → B.hi < 32)
  | .shr => A.hi < 2 ^ (W - 1) ∧ (A.lo < 0 → A.lo / 2 ^ B.lo.toNat = A.lo / 2 ^ B.hi.toNat) ∧
      (A.hi < 0 → A.hi / 2 ^ B.lo.toNat = A.hi / 2 ^ B.hi.toNat) ∧ B.hi < width W A
  | .band => (0 ≤ A.lo ∧ 0 ≤ B.lo) ∨ (0 ≤ A.lo ∧ A.hi ≤ B.hi) ∨ (0 ≤ B.lo ∧ B.hi ≤ A.hi)
  | .add | .sub | .div | .min | .max => True

instance : Decidable (Op2.Safe W A B o) := by
  cases o <;> unfold Op2.Safe <;> infer_instance

/-- For all values of two types: the operator compiles, gives a value of the declared type that is the mathematical one, and is undefined if there is
none. -/
def Op2.Sound (W : Nat) (o : Op2) (A B : Rng) : Prop :=
  ∀ a b x y, Holds W a x → Holds W b y → a.rng = A → b.rng = B →
    match o.math x y with
    | some v => ∃ c, o.run W a b = some (.ok c) ∧ o.ty W A B = some c.rng ∧ Holds W c v
    | none => o.run W a b = some .ub

variable {W : Nat}

theorem ok_bind_eq {α β : Type} {r : Res α} {f : α → Res β} {c : β} (h : (r >>= f) = .ok c) : ∃ x, r = .ok x ∧ f x = .ok c := by
  cases r with
  | ok x => exact ⟨x, rfl, h⟩
  | ub => cases h
  | exn => cases h

/-- The shape that the operators share: the type, then a computation that ends by storing a value of that type. -/
theorem run_ty {t : Option (Rng × CTy)} {a b : BInt} {f : CTy → Int → Int → Res Int} {c : BInt}
    (h : (t >>= fun p => some (do
      let x ← a.value
      let y ← b.value
      let q ← f p.2 x y
      return p.1.unchecked W q)) = some (.ok c)) : t.map (·.1) = some c.rng := by
  cases t with
  | none => cases h
  | some p =>
    simp only [Option.bind_eq_bind, Option.bind_some, Option.some.injEq] at h
    obtain ⟨x, _, h⟩ := ok_bind_eq h
    obtain ⟨y, _, h⟩ := ok_bind_eq h
    obtain ⟨q, _, h⟩ := ok_bind_eq h
    cases h
    rfl

theorem Op2.run_ty_mul {a b c : BInt} (h : Bounded.mul W a b = some (.ok c)) : mulTy W a.rng b.rng = some c.rng := by
  unfold Bounded.mul at h
  cases ht : mulTy W a.rng b.rng with
  | none => rw [ht] at h; cases h
  | some r =>
    rw [ht] at h
    simp only [Option.bind_eq_bind, Option.bind_some, Option.pure_def, Option.some.injEq] at h
    obtain ⟨x, _, h⟩ := ok_bind_eq h
    obtain ⟨y, _, h⟩ := ok_bind_eq h
    cases h
    rfl

/-- A type that is the result of an operator is a type. -/
theorem Op2.ty_wf (hW : 64 ≤ W) {o : Op2} {A B r : Rng} (hA : A.Wf W) (hB : B.Wf W) (h : o.ty W A B = some r) : r.Wf W := by
  have pair : ∀ {t : Option (Rng × CTy)}, (∀ p, t = some p → p.1.Wf W) → t.map (·.1) = some r → r.Wf W := by
    intro t ht h
    cases t with
    | none => cases h
    | some p => cases h; exact ht p rfl
  cases o with
  | add =>
    unfold Op2.ty at h
    simp only at h
    rw [plusTy_eq hW hA hB] at h
    exact wf_of_mk hW h
  | sub =>
    unfold Op2.ty minusTy at h
    simp only [Option.bind_eq_bind, Option.bind_eq_some_iff] at h
    obtain ⟨n, hn, h⟩ := h
    rw [negTy_eq hW hB] at hn
    rw [plusTy_eq hW hA (wf_of_mk hW hn)] at h
    exact wf_of_mk hW h
  | mul =>
    unfold Op2.ty mulTy at h
    simp only [Option.bind_eq_bind, Option.bind_eq_some_iff] at h
    obtain ⟨_, _, _, _, _, _, _, _, h⟩ := h
    exact wf_of_mk hW h
  | div =>
    refine pair (fun p hp => ?_) h
    unfold divTy at hp
    split at hp
    · cases hp
    · simp only [Option.bind_eq_bind, Option.bind_eq_some_iff, Option.pure_def, Option.some.injEq] at hp
      obtain ⟨_, _, r', hr', _, _, rfl⟩ := hp
      exact wf_of_mk hW hr'
  | mod =>
    refine pair (fun p hp => ?_) h
    unfold modTy at hp
    simp only [Option.bind_eq_bind, Option.bind_eq_some_iff, Option.pure_def, Option.some.injEq] at hp
    obtain ⟨_, _, r', hr', _, _, rfl⟩ := hp
    exact wf_of_mk hW hr'
  | min =>
    cases h
    have := (wf_iff hW _).mp hA
    have := (wf_iff hW _).mp hB
    rw [wf_iff hW]
    unfold Storable at *
    simp only
    omega
  | max =>
    cases h
    have := (wf_iff hW _).mp hA
    have := (wf_iff hW _).mp hB
    rw [wf_iff hW]
    unfold Storable at *
    simp only
    omega
  | shl =>
    refine pair (fun p hp => ?_) h
    unfold shlTy at hp
    simp only [Option.bind_eq_bind, Option.bind_eq_some_iff, Option.pure_def, Option.some.injEq] at hp
    obtain ⟨_, _, _, _, r', hr', _, _, rfl⟩ := hp
    exact wf_of_mk hW hr'
  | shr =>
    refine pair (fun p hp => ?_) h
    unfold shrTy at hp
    simp only [Option.bind_eq_bind, Option.bind_eq_some_iff, Option.pure_def, Option.some.injEq] at hp
    obtain ⟨_, _, _, _, r', hr', _, _, rfl⟩ := hp
    exact wf_of_mk hW hr'
  | band =>
    refine pair (fun p hp => ?_) h
    unfold bitAndTy at hp
    simp only [Option.bind_eq_bind, Option.bind_eq_some_iff, Option.pure_def, Option.some.injEq] at hp
    obtain ⟨r', hr', _, _, rfl⟩ := hp
    exact wf_of_mk hW hr'

/-- What the operator returns has the declared type. -/
theorem Op2.run_ty (hW : 64 ≤ W) {o : Op2} {a b c : BInt} {x y : Int} (ha : Holds W a x) (hb : Holds W b y) (h : o.run W a b = some (.ok c)) :
    o.ty W a.rng b.rng = some c.rng := by
  cases o with
  | add =>
    cases hr : plusTy W a.rng b.rng with
    | none => unfold Op2.run plus at h; simp only [hr] at h; cases h
    | some r =>
      obtain ⟨c', h1, h2, _⟩ := plus_value hW ha.1 hb.1 hr ha.2 hb.2
      have e : some (Res.ok c') = some (.ok c) := h1.symm.trans h
      cases e
      rw [← h2] at hr
      exact hr
  | sub =>
    have hc : minus W a b ≠ none := fun e => by unfold Op2.run at h; simp only at h; rw [e] at h; cases h
    have ht : minusTy W a.rng b.rng ≠ none := by
      intro hn
      unfold minusTy at hn
      unfold minus at hc
      cases hnb : negTy W b.rng with
      | none => unfold neg at hc; rw [hnb] at hc; exact hc rfl
      | some n =>
        rw [hnb] at hn hc
        simp only [Option.bind_eq_bind, Option.bind_some] at hn hc
        rw [hn] at hc
        cases hx : neg W b with
        | none => rw [hx] at hc; exact hc rfl
        | some z => rw [hx] at hc; exact hc rfl
    cases hr : minusTy W a.rng b.rng with
    | none => exact absurd hr ht
    | some r =>
      obtain ⟨c', h1, h2, _⟩ := minus_value hW ha.1 hb.1 hr ha.2 hb.2
      have e : some (Res.ok c') = some (.ok c) := h1.symm.trans h
      cases e
      rw [← h2] at hr
      exact hr
  | mul => exact Op2.run_ty_mul h
  | div => exact Bounded.run_ty (f := fun t x y => t.promote.div (t.wrap x) (t.wrap y)) h
  | mod => exact Bounded.run_ty (f := fun t x y => t.promote.mod (t.wrap x) (t.wrap y)) h
  | min =>
    obtain ⟨c', h1, _, h3⟩ := extreme_value hW .less ha (List.Forall₂.cons hb .nil)
    have e : some (Res.ok c') = some (.ok c) := h1.symm.trans h
    cases e
    rw [h3]; rfl
  | max =>
    obtain ⟨c', h1, _, h3⟩ := extreme_value hW .greater ha (List.Forall₂.cons hb .nil)
    have e : some (Res.ok c') = some (.ok c) := h1.symm.trans h
    cases e
    rw [h3]; rfl
  | shl => exact Bounded.run_ty (f := fun t x y => t.promote.shl (t.wrap x) (t.wrap y)) h
  | shr => exact Bounded.run_ty (f := fun t x y => t.promote.shr (t.wrap x) (t.wrap y)) h
  | band => exact Bounded.run_ty (f := fun t x y => .ok ((t.wrap x).land (t.wrap y))) h

theorem Op2.sound_of_exactFor (hW : 64 ≤ W) {o : Op2} {A B : Rng} {f : Int → Int → Int} (hm : ∀ x y, o.math x y = some (f x y))
    (hA : A.Wf W) (hB : B.Wf W) : o.Sound W A B ↔ ExactFor W (o.run W) f A B := by
  constructor
  · intro h a b x y ha hb ea eb
    have := h a b x y ha hb ea eb
    rw [hm] at this
    obtain ⟨c, h1, h2, h3⟩ := this
    exact ⟨c.rng, yields_of_holds hW h1 h3⟩
  · intro h a b x y ha hb ea eb
    obtain ⟨r, c, h1, h2, h3, _⟩ := h a b x y ha hb ea eb
    rw [hm]
    have ht := Op2.run_ty hW ha hb h1
    rw [ea, eb] at ht
    exact ⟨c, h1, ht, Op2.ty_wf hW hA hB ht, h3⟩

theorem map_ne_none {α β : Type} {t : Option α} {f : α → β} : t.map f ≠ none ↔ t ≠ none := by
  cases t <;> simp

/-- **C98**, one operator: for which two types it computes the mathematical result for all values. The condition is exact. -/
theorem C98_operator_exactly (hW : 64 ≤ W) (hW2 : W ≤ 128) (o : Op2) {A B : Rng} (hA : A.Wf W) (hB : B.Wf W) :
    o.Sound W A B ↔ o.ty W A B ≠ none ∧ o.Safe W A B := by
  have mA := lo_mem hW hA
  have mB := lo_mem hW hB
  have atLo := fun h : o.Sound W A B => h _ _ A.lo B.lo (holds_of_mem hW hA mA).1 (holds_of_mem hW hB mB).1 rfl rfl
  have some_ty : ∀ {v}, o.math A.lo B.lo = some v → o.Sound W A B → o.ty W A B ≠ none := by
    intro v hv h
    have := atLo h
    rw [hv] at this
    obtain ⟨c, _, h2, _⟩ := this
    rw [h2]; exact fun h => by cases h
  cases o with
  | add =>
    refine ⟨fun h => ⟨some_ty rfl h, trivial⟩, fun h a b x y ha hb ea eb => ?_⟩
    subst ea; subst eb
    cases hr : plusTy W a.rng b.rng with
    | none => exact absurd hr h.1
    | some r =>
      obtain ⟨c, h1, h2, h3, _, h5⟩ := plus_value hW ha.1 hb.1 hr ha.2 hb.2
      exact ⟨c, h1, by rw [h2]; exact hr, by rw [h2]; exact h5, h3⟩
  | sub =>
    refine ⟨fun h => ⟨some_ty rfl h, trivial⟩, fun h a b x y ha hb ea eb => ?_⟩
    subst ea; subst eb
    cases hr : minusTy W a.rng b.rng with
    | none => exact absurd hr h.1
    | some r =>
      obtain ⟨c, h1, h2, h3, _, h5⟩ := minus_value hW ha.1 hb.1 hr ha.2 hb.2
      exact ⟨c, h1, by rw [h2]; exact hr, by rw [h2]; exact h5, h3⟩
  | mul => rw [Op2.sound_of_exactFor hW (fun _ _ => rfl) hA hB]; exact C02_mul_types hW hA hB
  | div =>
    constructor
    · intro h
      refine ⟨?_, trivial⟩
      have := atLo h
      intro hn
      have hd : divTy W A B = none := by simpa [Op2.ty] using hn
      have hrun : Op2.div.run W (A.unchecked W A.lo) (B.unchecked W B.lo) = none := by
        show Bounded.div W _ _ = none
        unfold Bounded.div
        show (divTy W A B >>= _) = none
        rw [hd]; rfl
      rw [hrun] at this
      split at this
      · obtain ⟨_, h1, _⟩ := this; cases h1
      · cases this
    · intro h a b x y ha hb ea eb
      subst ea; subst eb
      cases hr : divTy W a.rng b.rng with
      | none => exact absurd (by simp [Op2.ty, hr]) h.1
      | some p =>
        have sp := div_value hW ha.1 hb.1 hr ha.2 hb.2
        simp only [Op2.math]
        by_cases hy : y = 0
        · rw [if_pos hy]; exact sp.2 hy
        · rw [if_neg hy]
          obtain ⟨c, h1, h2, h3, h4⟩ := sp.1 hy
          exact ⟨c, h1, by simp [Op2.ty, hr, h2], by rw [h2]; exact h4, h3⟩
  | mod =>
    have cmp : ∀ a b : BInt, a.rng = A → b.rng = B → (Bounded.mod W a b = none ↔ modTy W A B = none) := by
      rintro a b rfl rfl
      unfold Bounded.mod
      cases hr : modTy W a.rng b.rng with
      | none => simp
      | some p => simp
    constructor
    · intro h
      have hty : modTy W A B ≠ none := by
        intro hn
        have := atLo h
        rw [show Op2.mod.run W (A.unchecked W A.lo) (B.unchecked W B.lo) = none from (cmp _ _ rfl rfl).2 hn] at this
        split at this
        · obtain ⟨_, h1, _⟩ := this; cases h1
        · cases this
      refine ⟨by simpa [Op2.ty] using hty, ?_⟩
      rintro ⟨h1, h2, n, hn, hlo, w1, w2⟩
      have ha := (holds_of_mem hW hA mA).1
      have hb := (holds_of_mem hW hB (x := -1) ⟨h1, h2⟩).1
      have := h _ _ A.lo (-1) ha hb rfl rfl
      simp only [Op2.math, show ¬ ((-1 : Int) = 0) by decide, if_false] at this
      obtain ⟨c, hc, _⟩ := this
      have ub := (C05_mod_values hW ha hb (fun e => hty ((cmp _ _ rfl rfl).1 e))).1.2 (.inr ⟨rfl, n, hn, hlo, w1, w2⟩)
      have : some (Res.ok c) = some Res.ub := hc.symm.trans ub
      cases this
    · rintro ⟨hty, hs⟩ a b x y ha hb ea eb
      have hne : Bounded.mod W a b ≠ none := fun e => hty (by
        show (modTy W A B).map _ = none
        rw [(cmp a b ea eb).1 e]; rfl)
      have sp := C05_mod_values hW ha hb hne
      simp only [Op2.math]
      by_cases hy : y = 0
      · rw [if_pos hy]; exact sp.1.2 (.inl hy)
      · rw [if_neg hy]
        have nub : Bounded.mod W a b ≠ some .ub := by
          intro e
          rcases sp.1.1 e with h0 | ⟨h0, n, hn, hx, w1, w2⟩
          · exact hy h0
          · refine hs ?_
            have mx := value_mem ha.2 ((wf_iff hW _).mp ha.1).1
            have my := value_mem hb.2 ((wf_iff hW _).mp hb.1).1
            rw [ea] at mx w1
            rw [eb] at my w2
            unfold Rng.Mem at mx my
            have := w1.1
            exact ⟨by omega, by omega, n, hn, by omega, w1, w2⟩
        obtain ⟨r, c, h1, h2, h3, _⟩ := sp.2 nub
        have ht := Op2.run_ty (o := .mod) hW ha hb h1
        rw [ea, eb] at ht
        exact ⟨c, h1, ht, Op2.ty_wf hW hA hB ht, h3⟩
  | min =>
    refine ⟨fun h => ⟨some_ty rfl h, trivial⟩, fun h a b x y ha hb ea eb => ?_⟩
    obtain ⟨c, h1, h2, h3⟩ := extreme_value hW .less ha (List.Forall₂.cons hb .nil)
    have ht := Op2.run_ty (o := .min) hW ha hb h1
    rw [ea, eb] at ht
    exact ⟨c, h1, ht, h2⟩
  | max =>
    refine ⟨fun h => ⟨some_ty rfl h, trivial⟩, fun h a b x y ha hb ea eb => ?_⟩
    obtain ⟨c, h1, h2, h3⟩ := extreme_value hW .greater ha (List.Forall₂.cons hb .nil)
    have ht := Op2.run_ty (o := .max) hW ha hb h1
    rw [ea, eb] at ht
    exact ⟨c, h1, ht, h2⟩
  | shl =>
    rw [Op2.sound_of_exactFor hW (fun _ _ => rfl) hA hB]
    show ExactFor W (Bounded.shl W) _ A B ↔ (shlTy W A B).map _ ≠ none ∧ _
    rw [map_ne_none]; exact C07_shl_types hW hW2 hA hB
  | shr =>
    rw [Op2.sound_of_exactFor hW (fun _ _ => rfl) hA hB]
    show ExactFor W (Bounded.shr W) _ A B ↔ (shrTy W A B).map _ ≠ none ∧ _
    rw [map_ne_none]; exact C07_shr_types hW hW2 hA hB
  | band =>
    rw [Op2.sound_of_exactFor hW (fun _ _ => rfl) hA hB]
    show ExactFor W (bitAnd W) _ A B ↔ (bitAndTy W A B).map _ ≠ none ∧ _
    rw [map_ne_none]; exact C08_and_types hW hA hB

/-- Types of every kind, and types that are excluded. -/
example : Op2.shr.Sound 128 ⟨-1, 100⟩ ⟨0, 8⟩ := (C98_operator_exactly (by decide) (by decide) _ (by decide +kernel) (by decide +kernel)).2 (by decide +kernel)
example : Op2.mod.Sound 128 ⟨-(2 ^ 31), 2 ^ 31⟩ ⟨-5, 7⟩ :=
  (C98_operator_exactly (by decide) (by decide) _ (by decide +kernel) (by decide +kernel)).2 (by decide +kernel)
example : ¬ Op2.mod.Sound 128 ⟨-(2 ^ 31), 2 ^ 31 - 1⟩ ⟨-5, 7⟩ :=
  (C98_operator_exactly (by decide) (by decide) _ (by decide +kernel) (by decide +kernel)).not.2 (by decide +kernel)

/-! ## Expressions -/

/-- Expressions over bounded integer variables and literals. `conv T e` is `integer<lo, hi>(e)`, `assume T e` is
`assume_in_range<integer<lo, hi>>(e)`. -/
inductive PExpr where
  | var (i : Nat)
  | lit (v : Int)
  | pos (e : PExpr)
  | neg (e : PExpr)
  | abs (e : PExpr)
  | conv (T : Rng) (e : PExpr)
  | assume (T : Rng) (e : PExpr)
  | bin (o : Op2) (l r : PExpr)

/-- The declared range of the type of an expression, nothing if it does not compile. For `abs` see abs.cpp 21-32,
for unary plus unary_plus.cpp 16-18, for conversions integer.cpp 182-186, for `assume_in_range` integer.cpp 77-83 and 95-107: the result has the
values that both types have, and there must be one. -/
def PExpr.ty (W : Nat) (Γ : Nat → Rng) : PExpr → Option Rng
  | .var i => some (Γ i)
  | .lit v => mkInteger W v v
  | .pos e => e.ty W Γ
  | .neg e => do negTy W (← e.ty W Γ)
  | .abs e => do
    let A ← e.ty W Γ
    if 0 ≤ A.lo then some A
    else
      let n ← negTy W A
      if A.hi ≤ 0 then some n else some ⟨0, Max.max A.hi n.hi⟩
  | .conv T e => do
    let A ← e.ty W Γ
    if T.Wf W ∧ T.lo ≤ A.lo ∧ A.hi ≤ T.hi then some T else none
  | .assume T e => do
    let A ← e.ty W Γ
    if T.Wf W ∧ T.lo ≤ A.hi ∧ A.lo ≤ T.hi then some ⟨Max.max T.lo A.lo, Min.min T.hi A.hi⟩ else none
  | .bin o l r => do o.ty W (← l.ty W Γ) (← r.ty W Γ)

/-- None of the operators in the expression has operands of excluded types. -/
def PExpr.Safe (W : Nat) (Γ : Nat → Rng) : PExpr → Prop
  | .var _ | .lit _ => True
  | .pos e | .neg e | .abs e | .conv _ e | .assume _ e => e.Safe W Γ
  | .bin o l r => l.Safe W Γ ∧ r.Safe W Γ ∧ ∀ A B, l.ty W Γ = some A → r.ty W Γ = some B → o.Safe W A B

/-- A function of one argument after its argument. -/
def unary (op : BInt → Option (Res BInt)) (e : Option (Res BInt)) : Option (Res BInt) := do
  match ← e with
  | .ok a => op a
  | .ub => some .ub
  | .exn => some .exn

/-- Evaluation with the library's operators; `node` evaluates both operands first. -/
def PExpr.eval (W : Nat) (env : Nat → BInt) : PExpr → Option (Res BInt)
  | .var i => some (.ok (env i))
  | .lit v => some (.ok (constB v))
  | .pos e => unary (fun a => some (.ok a)) (e.eval W env)
  | .neg e => unary (Bounded.neg W) (e.eval W env)
  | .abs e => unary (Bounded.abs W) (e.eval W env)
  | .conv T e => unary (convert W T) (e.eval W env)
  | .assume T e => unary (fun a => assumeInRange W a T.lo T.hi) (e.eval W env)
  | .bin o l r => node (o.run W) (l.eval W env) (r.eval W env)

/-- Evaluation with mathematical integers. Plus and conversions do nothing, `assume` only says that there is no value outside of the range. -/
def PExpr.math (m : Nat → Int) : PExpr → Option Int
  | .var i => some (m i)
  | .lit v => some v
  | .pos e | .conv _ e => e.math m
  | .neg e => (e.math m).map (- ·)
  | .abs e => (e.math m).map (|·|)
  | .assume T e => do
    let v ← e.math m
    if T.lo ≤ v ∧ v ≤ T.hi then some v else none
  | .bin o l r => do o.math (← l.math m) (← r.math m)

/-- The variables have their declared types and hold the given values. -/
def Env (W : Nat) (Γ : Nat → Rng) (env : Nat → BInt) (m : Nat → Int) : Prop :=
  ∀ i, (env i).rng = Γ i ∧ Holds W (env i) (m i)

/-- What evaluation is supposed to give, at the type `r`. -/
def MeetsAt (W : Nat) (r : Rng) (out : Option (Res BInt)) : Option Int → Prop
  | some v => ∃ c, out = some (.ok c) ∧ c.rng = r ∧ Holds W c v
  | none => out = some .ub

theorem abs_compiles (hW : 64 ≤ W) {a : BInt} {x : Int} (ha : Holds W a x) (h : 0 ≤ a.rng.lo ∨ negTy W a.rng ≠ none) : Bounded.abs W a ≠ none := by
  unfold Bounded.abs
  split
  · exact fun h => by cases h
  · rename_i h1
    have hn : negTy W a.rng ≠ none := h.resolve_left h1
    cases hr : negTy W a.rng with
    | none => exact absurd hr hn
    | some r =>
      obtain ⟨c, e1, e2, e3, e4, e5⟩ := neg_value hW ha.1 hr ha.2
      split
      · rw [e1]; exact fun h => by cases h
      · have hcH : Holds W c (-x) := ⟨by rw [e2]; exact e5, e3⟩
        obtain ⟨d, d1, d2, d3⟩ := extreme_value hW .greater ha (List.Forall₂.cons hcH .nil)
        have ⟨p1, p2⟩ := pow_facts hW
        obtain ⟨f, f1, _⟩ := increaseMin_value hW (x := |x|) (by
          have : |x| = Max.max x (-x) := rfl
          rw [this]; exact d2) (n := 0) (by unfold Rep; omega) (_root_.abs_nonneg x)
        simp only [e1, d1, Option.bind_eq_bind, Option.bind_some]
        rw [f1]; exact fun h => by cases h

/-- **C98**, expressions: an expression that has a type evaluates to its mathematical value, at that type; it is undefined if a divisor is
zero or the argument of an `assume_in_range` is out of range. -/
theorem C98_expression_partial (hW : 64 ≤ W) (hW2 : W ≤ 128) {Γ : Nat → Rng} {env : Nat → BInt} {m : Nat → Int} (henv : Env W Γ env m) (e : PExpr) :
    ∀ {r : Rng}, e.ty W Γ = some r → e.Safe W Γ → r.Wf W ∧ MeetsAt W r (e.eval W env) (e.math m) := by
  induction e with
  | var i =>
    intro r ht _
    cases ht
    exact ⟨by rw [← (henv i).1]; exact (henv i).2.1, _, rfl, henv i⟩
  | lit v =>
    intro r ht _
    have hs := mkInteger_some hW ht
    have hr : Rep W v := (hs.2.2.rep hW hs.2.1).1
    exact ⟨wf_of_mk hW ht, _, rfl, hs.1.symm, constB_holds hW hr⟩
  | pos e ih =>
    intro r ht hs
    unfold PExpr.ty at ht
    obtain ⟨wr, ih⟩ := ih ht hs
    refine ⟨wr, ?_⟩
    unfold PExpr.eval PExpr.math
    cases hm : e.math m with
    | none =>
      rw [hm] at ih
      have ih : e.eval W env = some .ub := ih
      rw [ih]; rfl
    | some x =>
      rw [hm] at ih
      obtain ⟨a, h1, h2, h3⟩ := ih
      rw [h1]
      exact ⟨a, rfl, h2, h3⟩
  | conv T e ih =>
    intro r ht hs
    unfold PExpr.ty at ht
    simp only [Option.bind_eq_bind, Option.bind_eq_some_iff] at ht
    obtain ⟨A, hA, ht⟩ := ht
    obtain ⟨wA, ih⟩ := ih hA hs
    by_cases hT : T.Wf W ∧ T.lo ≤ A.lo ∧ A.hi ≤ T.hi
    · rw [if_pos hT] at ht
      cases ht
      refine ⟨hT.1, ?_⟩
      unfold PExpr.eval PExpr.math
      cases hm : e.math m with
      | none =>
        rw [hm] at ih
        have ih : e.eval W env = some .ub := ih
        rw [ih]; rfl
      | some x =>
        rw [hm] at ih
        obtain ⟨a, h1, h2, h3⟩ := ih
        rw [h1]
        exact convert_holds hW hT.1 h3 (by rw [h2]; exact hT.2)
    · rw [if_neg hT] at ht; cases ht
  | assume T e ih =>
    intro r ht hs
    unfold PExpr.ty at ht
    simp only [Option.bind_eq_bind, Option.bind_eq_some_iff] at ht
    obtain ⟨A, hA, ht⟩ := ht
    obtain ⟨wA, ih⟩ := ih hA hs
    by_cases hT : T.Wf W ∧ T.lo ≤ A.hi ∧ A.lo ≤ T.hi
    · rw [if_pos hT] at ht
      cases ht
      have wT := ((wf_iff hW _).mp hT.1).1
      have wr : Rng.Wf W ⟨Max.max T.lo A.lo, Min.min T.hi A.hi⟩ := by
        have w := ((wf_iff hW _).mp wA).1
        have mem : A.Mem (Max.max T.lo A.lo) := by unfold Rng.Mem; omega
        have hh := (holds_of_mem hW wA mem).1
        obtain ⟨c, _, c2, c3⟩ := (assumeInRange_spec hW (lo := T.lo) (hi := T.hi) hh (hT.1.rep hW).1 (hT.1.rep hW).2 hT.2 wT).1 (by omega)
        have e : c.rng = ⟨Max.max T.lo A.lo, Min.min T.hi A.hi⟩ := c2
        rw [← e]; exact c3.1
      refine ⟨wr, ?_⟩
      unfold PExpr.eval PExpr.math
      cases hm : e.math m with
      | none =>
        rw [hm] at ih
        have ih : e.eval W env = some .ub := ih
        rw [ih]; rfl
      | some x =>
        rw [hm] at ih
        obtain ⟨a, h1, h2, h3⟩ := ih
        rw [h1]
        have sp := assumeInRange_spec hW (lo := T.lo) (hi := T.hi) h3 (hT.1.rep hW).1 (hT.1.rep hW).2 (by rw [h2]; exact hT.2) wT
        show MeetsAt W _ (assumeInRange W a T.lo T.hi) (if T.lo ≤ x ∧ x ≤ T.hi then some x else none)
        by_cases hx : T.lo ≤ x ∧ x ≤ T.hi
        · rw [if_pos hx]
          obtain ⟨c, c1, c2, c3⟩ := sp.1 hx
          exact ⟨c, c1, by rw [c2, h2], c3⟩
        · rw [if_neg hx]; exact sp.2 hx
    · rw [if_neg hT] at ht; cases ht
  | neg e ih =>
    intro r ht hs
    unfold PExpr.ty at ht
    simp only [Option.bind_eq_bind, Option.bind_eq_some_iff] at ht
    obtain ⟨A, hA, ht⟩ := ht
    obtain ⟨wA, ih⟩ := ih hA hs
    have wr : r.Wf W := by rw [negTy_eq hW wA] at ht; exact wf_of_mk hW ht
    refine ⟨wr, ?_⟩
    unfold PExpr.eval PExpr.math
    cases hm : e.math m with
    | none =>
      rw [hm] at ih
      have ih : e.eval W env = some .ub := ih
      rw [ih]; rfl
    | some x =>
      rw [hm] at ih
      obtain ⟨a, h1, h2, h3⟩ := ih
      rw [h1]
      obtain ⟨c, c1, c2, c3, _, c5⟩ := neg_value hW h3.1 (by rw [h2]; exact ht) h3.2
      exact ⟨c, c1, c2, by rw [c2]; exact c5, c3⟩
  | abs e ih =>
    intro r ht hs
    unfold PExpr.ty at ht
    simp only [Option.bind_eq_bind, Option.bind_eq_some_iff] at ht
    obtain ⟨A, hA, ht⟩ := ht
    obtain ⟨wA, ih⟩ := ih hA hs
    have hneg : 0 ≤ A.lo ∨ negTy W A ≠ none := by
      by_cases h : 0 ≤ A.lo
      · exact .inl h
      · rw [if_neg h] at ht
        refine .inr (fun e => ?_)
        rw [e] at ht; cases ht
    have hr : r = if 0 ≤ A.lo then A else if A.hi ≤ 0 then ⟨-A.hi, -A.lo⟩ else ⟨0, Max.max A.hi (-A.lo)⟩ := by
      by_cases h : 0 ≤ A.lo
      · rw [if_pos h] at ht ⊢; exact (Option.some.inj ht).symm
      · rw [if_neg h] at ht ⊢
        simp only [Option.bind_eq_some_iff] at ht
        obtain ⟨n, hn, ht⟩ := ht
        rw [negTy_eq hW wA] at hn
        have := (mkInteger_some hW hn).1
        subst this
        split at ht <;> rename_i h2
        · rw [if_pos h2]; exact (Option.some.inj ht).symm
        · rw [if_neg h2]; exact (Option.some.inj ht).symm
    have wr : r.Wf W := by
      have := holds_of_mem hW wA (lo_mem hW wA)
      obtain ⟨c, _, c2, c3⟩ := abs_value hW this.1 (abs_compiles hW this.1 hneg)
      have e : c.rng = r := c3.trans hr.symm
      rw [← e]; exact c2.1
    refine ⟨wr, ?_⟩
    unfold PExpr.eval PExpr.math
    cases hm : e.math m with
    | none =>
      rw [hm] at ih
      have ih : e.eval W env = some .ub := ih
      rw [ih]; rfl
    | some x =>
      rw [hm] at ih
      obtain ⟨a, h1, h2, h3⟩ := ih
      rw [h1]
      obtain ⟨c, c1, c2, c3⟩ := abs_value hW h3 (abs_compiles hW h3 (by rw [h2]; exact hneg))
      exact ⟨c, c1, by rw [c3, h2, hr], c2⟩
  | bin o l r il ir =>
    intro t ht hs
    unfold PExpr.ty at ht
    simp only [Option.bind_eq_bind, Option.bind_eq_some_iff] at ht
    obtain ⟨A, hA, B, hB, ht⟩ := ht
    obtain ⟨wA, il⟩ := il hA hs.1
    obtain ⟨wB, ir⟩ := ir hB hs.2.1
    have sound := (C98_operator_exactly hW hW2 o wA wB).2 ⟨by rw [ht]; exact (fun h => by cases h), hs.2.2 A B hA hB⟩
    refine ⟨Op2.ty_wf hW wA wB ht, ?_⟩
    unfold PExpr.eval PExpr.math
    cases hl : l.math m with
    | none =>
      rw [hl] at il
      have il : l.eval W env = some .ub := il
      rw [il]
      cases hr : r.math m with
      | none => rw [hr] at ir; rw [show r.eval W env = some .ub from ir]; rfl
      | some y => rw [hr] at ir; obtain ⟨b, h1, _⟩ := ir; rw [h1]; rfl
    | some x =>
      rw [hl] at il
      obtain ⟨a, a1, a2, a3⟩ := il
      rw [a1]
      cases hr : r.math m with
      | none => rw [hr] at ir; rw [show r.eval W env = some .ub from ir]; rfl
      | some y =>
        rw [hr] at ir
        obtain ⟨b, b1, b2, b3⟩ := ir
        rw [b1]
        have := sound a b x y a3 b3 a2 b2
        show MeetsAt W t (o.run W a b) (o.math x y)
        cases hv : o.math x y with
        | none => rw [hv] at this; exact this
        | some v =>
          rw [hv] at this
          obtain ⟨c, c1, c2, c3⟩ := this
          rw [ht] at c2
          exact ⟨c, c1, (Option.some.inj c2).symm, c3⟩

/-! ## Conditions -/

/-- The comparison operators. -/
inductive Rel where
  | lt | le | gt | ge | eq | ne

/-- Conditions: comparisons of two expressions, and the operators of the language on them. -/
inductive Cond where
  | rel (c : Rel) (l r : PExpr)
  | not (c : Cond)
  | and (c d : Cond)
  | or (c d : Cond)

/-- `==` and `!=` call comparison.cpp 32-43, the others are rewritten by the language to comparison.cpp 17-30. -/
def Rel.run (W : Nat) (a b : BInt) : Rel → Res Bool
  | .lt => do return (← compareB W a b) == .lt
  | .le => do return (← compareB W a b) != .gt
  | .gt => do return (← compareB W a b) == .gt
  | .ge => do return (← compareB W a b) != .lt
  | .eq => equalB W a b
  | .ne => do return !(← equalB W a b)

/-- The same on mathematical integers. -/
def Rel.math (x y : Int) : Rel → Bool
  | .lt => decide (x < y)
  | .le => decide (x ≤ y)
  | .gt => decide (y < x)
  | .ge => decide (y ≤ x)
  | .eq => decide (x = y)
  | .ne => decide (x ≠ y)

/-- Evaluation of a condition with the library's operators; `&&` and `||` skip their second operand. -/
def Cond.eval (W : Nat) (env : Nat → BInt) : Cond → Option (Res Bool)
  | .rel c l r =>
    match l.eval W env, r.eval W env with
    | some (.ok a), some (.ok b) => some (c.run W a b)
    | some (.ok _), some .ub => some .ub
    | some (.ok _), some .exn => some .exn
    | some .ub, some _ => some .ub
    | some .exn, some _ => some .exn
    | _, _ => none
  | .not c => (c.eval W env).map fun r => do return !(← r)
  | .and c d =>
    match c.eval W env with
    | some (.ok true) => d.eval W env
    | r => r
  | .or c d =>
    match c.eval W env with
    | some (.ok false) => d.eval W env
    | r => r

/-- Evaluation of a condition with mathematical integers. -/
def Cond.math (m : Nat → Int) : Cond → Option Bool
  | .rel c l r => do return c.math (← l.math m) (← r.math m)
  | .not c => (c.math m).map (!·)
  | .and c d => do if ← c.math m then d.math m else some false
  | .or c d => do if ← c.math m then some true else d.math m

/-- Everything in a condition compiles and no types are excluded. -/
def Cond.Ok (W : Nat) (Γ : Nat → Rng) : Cond → Prop
  | .rel _ l r => l.ty W Γ ≠ none ∧ l.Safe W Γ ∧ r.ty W Γ ≠ none ∧ r.Safe W Γ
  | .not c => c.Ok W Γ
  | .and c d | .or c d => c.Ok W Γ ∧ d.Ok W Γ

theorem Rel.run_math (hW : 64 ≤ W) {a b : BInt} {x y : Int} (ha : Holds W a x) (hb : Holds W b y) (c : Rel) : c.run W a b = .ok (c.math x y) := by
  obtain ⟨o, h1, h2, h3, h4⟩ := C09_compare_exact hW ha.1 hb.1 ha.2 hb.2
  obtain ⟨q, q1, q2⟩ := C09_equal_exact hW ha.1 hb.1 ha.2 hb.2
  cases c with
  | lt => simp only [Rel.run, h1, Rel.math]; show Res.ok _ = _; congr 1; rw [Bool.eq_iff_iff]; simp [h2]
  | le => simp only [Rel.run, h1, Rel.math]; show Res.ok _ = _; congr 1; rw [Bool.eq_iff_iff]; simp [h4]
  | gt => simp only [Rel.run, h1, Rel.math]; show Res.ok _ = _; congr 1; rw [Bool.eq_iff_iff]; simp [h4]
  | ge => simp only [Rel.run, h1, Rel.math]; show Res.ok _ = _; congr 1; rw [Bool.eq_iff_iff]; simp [h2]
  | eq => simp only [Rel.run, q1, Rel.math]; congr 1; rw [Bool.eq_iff_iff]; simp [q2]
  | ne => simp only [Rel.run, q1, Rel.math]; show Res.ok _ = _; congr 1; rw [Bool.eq_iff_iff]; cases q <;> simp_all

theorem Cond.eval_math (hW : 64 ≤ W) (hW2 : W ≤ 128) {Γ : Nat → Rng} {env : Nat → BInt} {m : Nat → Int} (henv : Env W Γ env m) (c : Cond)
    (hc : c.Ok W Γ) : c.eval W env = some (match c.math m with | some b => .ok b | none => .ub) := by
  induction c with
  | rel c l r =>
    obtain ⟨h1, h2, h3, h4⟩ := hc
    cases hA : l.ty W Γ with
    | none => exact absurd hA h1
    | some A =>
      cases hB : r.ty W Γ with
      | none => exact absurd hB h3
      | some B =>
        have il := (C98_expression_partial hW hW2 henv l hA h2).2
        have ir := (C98_expression_partial hW hW2 henv r hB h4).2
        unfold Cond.eval Cond.math
        cases hl : l.math m with
        | none =>
          rw [hl] at il
          rw [show l.eval W env = some .ub from il]
          cases hr : r.math m with
          | none => rw [hr] at ir; rw [show r.eval W env = some .ub from ir]; rfl
          | some y => rw [hr] at ir; obtain ⟨b, h1, _⟩ := ir; rw [h1]; rfl
        | some x =>
          rw [hl] at il
          obtain ⟨a, a1, a2, a3⟩ := il
          rw [a1]
          cases hr : r.math m with
          | none => rw [hr] at ir; rw [show r.eval W env = some .ub from ir]; rfl
          | some y =>
            rw [hr] at ir
            obtain ⟨b, b1, b2, b3⟩ := ir
            rw [b1]
            show some (c.run W a b) = _
            rw [Rel.run_math hW a3 b3]; rfl
  | not c ih =>
    unfold Cond.eval Cond.math
    rw [ih hc]
    cases c.math m <;> rfl
  | and c d ic id =>
    unfold Cond.eval Cond.math
    rw [ic hc.1]
    cases c.math m with
    | none => rfl
    | some b => cases b with
      | false => rfl
      | true => exact id hc.2
  | or c d ic id =>
    unfold Cond.eval Cond.math
    rw [ic hc.1]
    cases c.math m with
    | none => rfl
    | some b => cases b with
      | true => rfl
      | false => exact id hc.2

/-! ## Programs -/

/-- Programs: assignment, compound assignment with any operator, sequence, branch, loop. -/
inductive Stmt where
  | skip
  | assign (i : Nat) (e : PExpr)
  | update (o : Op2) (i : Nat) (e : PExpr)
  | seq (s t : Stmt)
  | ite (c : Cond) (s t : Stmt)
  | loop (c : Cond) (s : Stmt)

/-- How a run ends; `more` if the allowed number of rounds is used up. -/
inductive Run (σ : Type) where
  | done (s : σ)
  | undef
  | threw
  | rejected
  | more

/-- The next step after an operation of the library. -/
def Run.after {α σ : Type} (r : Option (Res α)) (f : α → Run σ) : Run σ :=
  match r with
  | some (.ok a) => f a
  | some .ub => .undef
  | some .exn => .threw
  | none => .rejected

/-- One thing after another. -/
def Run.next {σ τ : Type} (r : Run σ) (f : σ → Run τ) : Run τ :=
  match r with
  | .done s => f s
  | .undef => .undef
  | .threw => .threw
  | .rejected => .rejected
  | .more => .more

/-- The rounds of a loop, at most `n`. -/
def rounds {σ : Type} (cond : σ → Run Bool) (body : σ → Run σ) : Nat → σ → Run σ
  | 0, _ => .more
  | n + 1, s => (cond s).next fun b => if b then (body s).next (rounds cond body n) else .done s

/-- A program with the library's operators, for at most `n` rounds of every loop. Compound assignment is `x = x op e` (the `operators` submodule,
increment_decrement.cpp 23). -/
def Stmt.exec (W n : Nat) : Stmt → (Nat → BInt) → Run (Nat → BInt)
  | .skip, env => .done env
  | .assign i e, env => .after (e.eval W env) fun v => .after (Bounded.assign W (env i) v) fun x => .done (upd env i x)
  | .update o i e, env => .after (e.eval W env) fun v => .after (compound W (fun W => o.run W) (env i) v) fun x => .done (upd env i x)
  | .seq s t, env => (s.exec W n env).next (t.exec W n)
  | .ite c s t, env => .after (c.eval W env) fun b => if b then s.exec W n env else t.exec W n env
  | .loop c s, env => rounds (fun env => .after (c.eval W env) .done) (s.exec W n) n env

/-- A value that may not exist. -/
def Run.of {α : Type} : Option α → Run α
  | some a => .done a
  | none => .undef

/-- The only check there is: a variable takes the values of its range. -/
def store (Γ : Nat → Rng) (m : Nat → Int) (i : Nat) (v : Int) : Run (Nat → Int) :=
  if (Γ i).lo ≤ v ∧ v ≤ (Γ i).hi then .done (upd m i v) else .undef

/-- The program on mathematical integers. -/
def Stmt.math (Γ : Nat → Rng) (n : Nat) : Stmt → (Nat → Int) → Run (Nat → Int)
  | .skip, m => .done m
  | .assign i e, m => (Run.of (e.math m)).next (store Γ m i)
  | .update o i e, m => (Run.of (e.math m)).next fun v => (Run.of (o.math (m i) v)).next (store Γ m i)
  | .seq s t, m => (s.math Γ n m).next (t.math Γ n)
  | .ite c s t, m => (Run.of (c.math m)).next fun b => if b then s.math Γ n m else t.math Γ n m
  | .loop c s, m => rounds (fun m => .of (c.math m)) (s.math Γ n) n m

/-- A value of one range can be in the other. -/
def Overlap (A B : Rng) : Prop := A.lo ≤ B.hi ∧ B.lo ≤ A.hi

/-- The program compiles and none of its operators has excluded types. A value can be assigned if its type has a value in common with the type of the
variable. -/
def Stmt.Ok (W : Nat) (Γ : Nat → Rng) : Stmt → Prop
  | .skip => True
  | .assign i e => e.Safe W Γ ∧ ∃ r, e.ty W Γ = some r ∧ Overlap (Γ i) r
  | .update o i e => e.Safe W Γ ∧ ∃ B r, e.ty W Γ = some B ∧ o.ty W (Γ i) B = some r ∧ o.Safe W (Γ i) B ∧ Overlap (Γ i) r
  | .seq s t => s.Ok W Γ ∧ t.Ok W Γ
  | .ite c s t => c.Ok W Γ ∧ s.Ok W Γ ∧ t.Ok W Γ
  | .loop c s => c.Ok W Γ ∧ s.Ok W Γ

/-- The two runs end in the same way; if they end at all, with the same values in variables of the declared types. Neither throws. -/
def Agree (W : Nat) (Γ : Nat → Rng) : Run (Nat → BInt) → Run (Nat → Int) → Prop
  | .done env, .done m => Env W Γ env m
  | .undef, .undef => True
  | .more, .more => True
  | _, _ => False

theorem assign_agree (hW : 64 ≤ W) {Γ : Nat → Rng} {env : Nat → BInt} {m : Nat → Int} (henv : Env W Γ env m) {i : Nat} {c : BInt} {v : Int}
    (hc : Holds W c v) (ho : Overlap (Γ i) c.rng) :
    Agree W Γ (.after (Bounded.assign W (env i) c) fun x => .done (upd env i x)) (store Γ m i v) := by
  obtain ⟨ei, hi⟩ := henv i
  have hne : Bounded.assign W (env i) c ≠ none := by
    rw [Ne, C12_assign_rejected_iff hW hi hc, not_not, ei]
    have w1 := ((wf_iff hW _).mp hi.1).1
    have w2 := ((wf_iff hW _).mp hc.1).1
    rw [ei] at w1
    unfold Overlap at ho
    exact ⟨Max.max (Γ i).lo c.rng.lo, by unfold Rng.Mem; omega, by unfold Rng.Mem; omega⟩
  have sp := assign_spec hW hi hc hne
  rw [ei] at sp
  unfold store
  by_cases h : (Γ i).lo ≤ v ∧ v ≤ (Γ i).hi
  · rw [if_pos h]
    obtain ⟨d, d1, d2, d3⟩ := sp.1 h
    rw [d1]
    intro k
    by_cases hk : k = i
    · subst hk; rw [upd_same, upd_same]; exact ⟨d2, d3⟩
    · rw [upd_other _ _ hk, upd_other _ _ hk]; exact henv k
  · rw [if_neg h, sp.2 h]; trivial

theorem Agree.next {r : Run (Nat → BInt)} {q : Run (Nat → Int)} {Γ : Nat → Rng} {f : (Nat → BInt) → Run (Nat → BInt)} {g : (Nat → Int) → Run (Nat → Int)}
    (h : Agree W Γ r q) (hf : ∀ env m, Env W Γ env m → Agree W Γ (f env) (g m)) : Agree W Γ (r.next f) (q.next g) := by
  cases r <;> cases q <;> first | exact hf _ _ h | exact h | exact h.elim

/-- **C98**: a program that compiles, over any number of variables of any types, runs as it would on mathematical integers: it takes the same
branches, every loop has the same number of rounds, and when it ends every variable has its declared type and the mathematical value. It is undefined
exactly when a divisor is zero, a value outside of the range of a variable is assigned to it or an `assume_in_range` does not hold. It never throws.

Missing for the full claim: operators with operands of the types that `Op2.Safe` excludes, for which they are wrong (`C98_operator_exactly`). -/
theorem C98_program_partial (hW : 64 ≤ W) (hW2 : W ≤ 128) {Γ : Nat → Rng} (n : Nat) (s : Stmt) (hs : s.Ok W Γ) :
    ∀ {env : Nat → BInt} {m : Nat → Int}, Env W Γ env m → Agree W Γ (s.exec W n env) (s.math Γ n m) := by
  induction s with
  | skip => intro env m h; exact h
  | assign i e =>
    intro env m h
    obtain ⟨h1, r, h2, h3⟩ := hs
    have he := (C98_expression_partial hW hW2 h e h2 h1).2
    unfold Stmt.exec Stmt.math
    cases hm : e.math m with
    | none => rw [hm] at he; rw [show e.eval W env = some .ub from he]; trivial
    | some v =>
      rw [hm] at he
      obtain ⟨c, c1, c2, c3⟩ := he
      rw [c1]
      exact assign_agree hW h c3 (by rw [c2]; exact h3)
  | update o i e =>
    intro env m h
    obtain ⟨h1, B, r, h2, h3, h4, h5⟩ := hs
    obtain ⟨wB, he⟩ := C98_expression_partial hW hW2 h e h2 h1
    have wA : (Γ i).Wf W := by rw [← (h i).1]; exact (h i).2.1
    have sound := (C98_operator_exactly hW hW2 o wA wB).2 ⟨by rw [h3]; exact (fun h => by cases h), h4⟩
    unfold Stmt.exec Stmt.math
    cases hm : e.math m with
    | none => rw [hm] at he; rw [show e.eval W env = some .ub from he]; trivial
    | some v =>
      rw [hm] at he
      obtain ⟨c, c1, c2, c3⟩ := he
      rw [c1]
      have sp := sound (env i) c (m i) v (h i).2 c3 (h i).1 c2
      show Agree W Γ (.after (compound W (fun W => o.run W) (env i) c) fun x => .done (upd env i x)) ((Run.of (o.math (m i) v)).next (store Γ m i))
      unfold compound
      show Agree W Γ (.after (o.run W (env i) c >>= _) _) _
      cases hv : o.math (m i) v with
      | none => rw [hv] at sp; rw [show o.run W (env i) c = some .ub from sp]; trivial
      | some w =>
        rw [hv] at sp
        obtain ⟨d, d1, d2, d3⟩ := sp
        rw [d1]
        refine assign_agree hW h d3 ?_
        rw [h3] at d2
        cases d2
        exact h5
  | seq s t is it =>
    intro env m h
    exact (is hs.1 h).next fun env m h => it hs.2 h
  | ite c s t is it =>
    intro env m h
    unfold Stmt.exec Stmt.math
    rw [Cond.eval_math hW hW2 h c hs.1]
    cases c.math m with
    | none => trivial
    | some b => cases b with
      | true => exact is hs.2.1 h
      | false => exact it hs.2.2 h
  | loop c s is =>
    suffices H : ∀ k {env : Nat → BInt} {m : Nat → Int}, Env W Γ env m →
        Agree W Γ (rounds (fun env => .after (c.eval W env) .done) (s.exec W n) k env) (rounds (fun m => .of (c.math m)) (s.math Γ n) k m) from
      fun {env m} h => H n h
    intro k
    induction k with
    | zero => intro env m h; trivial
    | succ k ik =>
      intro env m h
      unfold rounds
      rw [Cond.eval_math hW hW2 h c hs.1]
      cases c.math m with
      | none => trivial
      | some b => cases b with
        | true => exact (is hs.2 h).next fun env m h => ik h
        | false => exact h

/-- **C98**: it ends if and only if the program on mathematical integers does, and then with the same values. -/
theorem C98_same_end_partial (hW : 64 ≤ W) (hW2 : W ≤ 128) {Γ : Nat → Rng} (s : Stmt) (hs : s.Ok W Γ) {env : Nat → BInt} {m : Nat → Int}
    (h : Env W Γ env m) :
    ((∃ n env', s.exec W n env = .done env') ↔ ∃ n m', s.math Γ n m = .done m') ∧
      ∀ n env', s.exec W n env = .done env' → ∃ m', s.math Γ n m = .done m' ∧ ∀ i, (env' i).value = .ok (m' i) := by
  have key := fun n => C98_program_partial hW hW2 n s hs h
  have one : ∀ n env', s.exec W n env = .done env' → ∃ m', s.math Γ n m = .done m' ∧ ∀ i, (env' i).value = .ok (m' i) := by
    intro n env' e
    have := key n
    rw [e] at this
    cases hm : s.math Γ n m with
    | done m' => rw [hm] at this; exact ⟨m', rfl, fun i => (this i).2.2⟩
    | _ => rw [hm] at this; exact this.elim
  refine ⟨⟨fun ⟨n, env', e⟩ => ?_, fun ⟨n, m', e⟩ => ?_⟩, one⟩
  · obtain ⟨m', e', _⟩ := one n env' e
    exact ⟨n, m', e'⟩
  · have := key n
    rw [e] at this
    cases hx : s.exec W n env with
    | done env' => exact ⟨n, env', hx⟩
    | _ => rw [hx] at this; exact this.elim

/-- **C98**: nothing in it throws and, as it compiles, nothing in it is rejected. -/
theorem C98_never_throws_partial (hW : 64 ≤ W) (hW2 : W ≤ 128) {Γ : Nat → Rng} (s : Stmt) (hs : s.Ok W Γ) {env : Nat → BInt} {m : Nat → Int}
    (h : Env W Γ env m) (n : Nat) : s.exec W n env ≠ .threw ∧ s.exec W n env ≠ .rejected := by
  have := C98_program_partial hW hW2 n s hs h
  constructor <;> intro e <;> rw [e] at this <;> cases hm : s.math Γ n m <;> rw [hm] at this <;> exact this

/-- The types must be excluded: `y = x % c` with `x` of the type of all values of `int` compiles, on integers it ends, but with the bounded integers it
is undefined. -/
theorem C98_excluded_types_violated : ∃ (s : Stmt) (Γ : Nat → Rng) (env : Nat → BInt) (m : Nat → Int) (m' : Nat → Int),
    (∃ e, s = .assign 1 e ∧ e.ty 128 Γ = some (Γ 1)) ∧ Env 128 Γ env m ∧ s.math Γ 0 m = .done m' ∧ s.exec 128 0 env = .undef := by
  refine ⟨.assign 1 (.bin .mod (.var 0) (.lit (-1))), fun i => if i = 0 then ⟨-(2 ^ 31), 2 ^ 31 - 1⟩ else ⟨0, 0⟩,
    fun i => if i = 0 then ⟨⟨-(2 ^ 31), 2 ^ 31 - 1⟩, -(2 ^ 31)⟩ else ⟨⟨0, 0⟩, 0⟩, fun i => if i = 0 then -(2 ^ 31) else 0, _,
    ⟨_, rfl, by decide +kernel⟩, fun i => ?_, rfl, by with_unfolding_all rfl⟩
  by_cases h : i = 0
  · simp only [h, if_true, Holds]; decide +kernel
  · simp only [h, if_false, Holds]; decide +kernel

/-- The greatest common divisor by Euclid's algorithm, with variables of three types: `while (b != 0) { t = a % b; a = b; b = t; }`, which compiles
only if the divisor's type is not just zero. -/
def gcdProgram : Stmt :=
  .loop (.rel .ne (.var 1) (.lit 0)) (.seq (.assign 2 (.bin .mod (.var 0) (.var 1))) (.seq (.assign 0 (.var 1)) (.assign 1 (.var 2))))

/-- The types of the variables of `gcdProgram`. -/
def gcdTypes : Nat → Rng
  | 0 => ⟨0, 1000⟩
  | 1 => ⟨0, 300⟩
  | _ => ⟨0, 299⟩

example : gcdProgram.Ok 128 gcdTypes := by
  refine ⟨⟨by decide +kernel, trivial, by decide +kernel, trivial⟩, ⟨⟨trivial, trivial, ?_⟩, ⟨0, 299⟩, by decide +kernel, by unfold Overlap; decide +kernel⟩,
    ⟨trivial, ⟨0, 300⟩, rfl, by unfold Overlap; decide +kernel⟩, ⟨trivial, ⟨0, 299⟩, rfl, by unfold Overlap; decide +kernel⟩⟩
  intro A B hA hB
  cases hA; cases hB
  decide +kernel

example : (match gcdProgram.exec 128 10 fun i => (gcdTypes i).unchecked 128 ([252, 198, 0].getD i 0) with
    | .done env => some ((env 0).value, (env 1).value)
    | _ => none) = some (.ok 18, .ok 0) := by decide +kernel

/-- Unary plus, a conversion and `assume_in_range` in an expression: its type, its value, and an assumption that does not hold. -/
example : (PExpr.assume ⟨-5, 40⟩ (.bin .mul (.pos (.var 0)) (.conv ⟨-3, 9⟩ (.lit 2)))).ty 128 gcdTypes = some ⟨-5, 40⟩ ∧
    (PExpr.assume ⟨-5, 40⟩ (.bin .mul (.pos (.var 0)) (.conv ⟨-3, 9⟩ (.lit 2)))).eval 128 (fun i => (gcdTypes i).unchecked 128 20) = some (.ok ⟨⟨-5, 40⟩, 40⟩) ∧
    (PExpr.assume ⟨-5, 40⟩ (.bin .mul (.pos (.var 0)) (.conv ⟨-3, 9⟩ (.lit 2)))).eval 128 (fun i => (gcdTypes i).unchecked 128 21) = some .ub ∧
    (PExpr.assume ⟨-5, 40⟩ (.bin .mul (.pos (.var 0)) (.conv ⟨-3, 9⟩ (.lit 2)))).math (fun _ => 21) = none := by
  decide +kernel

/-- With a variable that is too small for the remainder, the two runs are undefined. -/
example : (match (Stmt.update .add 0 (.lit 900)).exec 128 10 fun i => (gcdTypes i).unchecked 128 252 with
    | .undef => true
    | _ => false) = true ∧ (match (Stmt.update .add 0 (.lit 900)).math gcdTypes 10 fun _ => 252 with
    | .undef => true
    | _ => false) = true := by decide +kernel

end Verif.Bounded
