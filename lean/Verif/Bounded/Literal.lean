import Verif.Bounded.ToString

/-!
# The literal suffix `_bi` (property C67)
-/

namespace Verif.Bounded

open Verif

/-- source/bounded/literal.cpp 33-47 `literal_impl`: the loop over the characters of the
literal; `none` where the assertion on line 43 fails, which makes the constant expression
ill-formed. All arithmetic is in `max_unsigned_t` and so modulo `2^W`. -/
def literalLoop (W : Nat) : Int → List Int → Option Int
  | result, [] => some result
  | result, digit :: rest =>
    if digit = 39 then literalLoop W result rest
    else
      let result := (result * 10) % 2 ^ W
      let digitNum := (umax W).wrap (digit - 48)
      if digitNum ≤ 9 then literalLoop W ((result + digitNum) % 2 ^ W) rest else none

/-- source/bounded/literal.cpp 51-54 `operator""_bi`: the operand is the spelling of the
literal. -/
def literal (W : Nat) (digits : List Int) : Option BInt := do
  let v ← literalLoop W 0 digits
  let r ← mkInteger W v v
  return ⟨r, v⟩

/-! ## Specification: the integer literals of C++ [lex.icon] -/

/-- The value of a digit in any base, by its character code. -/
def digitValue (c : Int) : Option Nat :=
  if 48 ≤ c ∧ c ≤ 57 then some (c - 48).toNat
  else if 97 ≤ c ∧ c ≤ 102 then some (c - 87).toNat
  else if 65 ≤ c ∧ c ≤ 70 then some (c - 55).toNat
  else none

/-- The value of a sequence of digits in base `b` with separators `'`. -/
def positional (b : Nat) (cs : List Int) : Option Nat :=
  (cs.filter (· ≠ 39)).foldl
    (fun acc c =>
      match acc, digitValue c with
      | some a, some d => if d < b then some (a * b + d) else none
      | _, _ => none)
    (some 0)

/-- The value of an integer literal: hexadecimal after `0x`, binary after `0b`, octal after
`0`, decimal otherwise. -/
def literalValue (cs : List Int) : Option Nat :=
  match cs with
  | 48 :: 120 :: r => positional 16 r
  | 48 :: 88 :: r => positional 16 r
  | 48 :: 98 :: r => positional 2 r
  | 48 :: 66 :: r => positional 2 r
  | 48 :: r => positional 8 r
  | r => positional 10 r

section
variable {W : Nat}

theorem digitNum_ok (hW : 64 ≤ W) {c : Int} (hc : -128 ≤ c ∧ c ≤ 255) :
    ((umax W).wrap (c - 48) ≤ 9 ↔ 48 ≤ c ∧ c ≤ 57) ∧ (48 ≤ c → (umax W).wrap (c - 48) = c - 48) := by
  have ⟨p1, p2⟩ := pow_facts hW
  rw [umax_wrap]
  by_cases h : 48 ≤ c
  · rw [Int.emod_eq_of_lt (by omega) (by omega)]
    omega
  · have : (c - 48) % 2 ^ W = c - 48 + 2 ^ W := by
      rw [← Int.add_emod_right (a := c - 48)]
      exact Int.emod_eq_of_lt (by omega) (by omega)
    rw [this]; omega

/-- The step of `positional`. -/
def positionalStep (b : Nat) (acc : Option Nat) (c : Int) : Option Nat :=
  match acc, digitValue c with
  | some a, some d => if d < b then some (a * b + d) else none
  | _, _ => none

theorem positional_none (b : Nat) (cs : List Int) : cs.foldl (positionalStep b) none = none := by
  induction cs with
  | nil => rfl
  | cons c cs ih => exact ih

theorem digitValue_ten {c : Int} : (∃ d, digitValue c = some d ∧ d < 10) ↔ 48 ≤ c ∧ c ≤ 57 := by
  unfold digitValue
  split
  · simp; omega
  · split
    · simp; omega
    · split
      · simp; omega
      · simp; omega

theorem literalLoop_eq (hW : 64 ≤ W) {cs : List Int} (hcs : ∀ c ∈ cs, -128 ≤ c ∧ c ≤ 255) (a : Nat) :
    literalLoop W ((a : Int) % 2 ^ W) cs =
      ((cs.filter (· ≠ 39)).foldl (positionalStep 10) (some a)).map fun n : Nat => (n : Int) % 2 ^ W := by
  induction cs generalizing a with
  | nil => rfl
  | cons c cs ih =>
    have ih := fun a => ih (fun d hd => hcs d (by simp [hd])) a
    have hc := hcs c (by simp)
    unfold literalLoop
    by_cases h39 : c = 39
    · rw [if_pos h39, List.filter_cons_of_neg (by simp [h39])]
      exact ih a
    · rw [if_neg h39, List.filter_cons_of_pos (by simp [h39]), List.foldl_cons]
      obtain ⟨d1, d2⟩ := digitNum_ok hW hc
      simp only
      by_cases hd : 48 ≤ c ∧ c ≤ 57
      · have e : digitValue c = some (c - 48).toNat := by unfold digitValue; rw [if_pos hd]
        have es : positionalStep 10 (some a) c = some (a * 10 + (c - 48).toNat) := by
          unfold positionalStep; rw [e]; simp only; rw [if_pos (by omega)]
        rw [if_pos (d1.mpr hd), d2 hd.1, es, ← ih]
        congr 1
        push_cast
        rw [show ((c - 48).toNat : Int) = c - 48 by omega]
        have e2 : (max (c - 48) 0) = c - 48 := by omega
        rw [Int.add_emod, Int.emod_emod_of_dvd _ (dvd_refl _), Int.mul_emod, Int.emod_emod_of_dvd _ (dvd_refl _),
          ← Int.mul_emod, ← Int.add_emod]
      · have es : positionalStep 10 (some a) c = none := by
          unfold positionalStep
          cases e : digitValue c with
          | none => rfl
          | some d =>
            simp only
            rw [if_neg]
            intro hlt
            exact hd (digitValue_ten.mp ⟨d, e, hlt⟩)
        rw [if_neg (fun h => hd (d1.mp h)), es, positional_none]
        rfl

/-- C67: what `_bi` does, for every spelling: it is rejected exactly if some character is
neither a decimal digit nor a separator, and otherwise gives the constant with the value of
the decimal digits modulo `2^W`. -/
theorem C67_literal_exact (hW : 64 ≤ W) {cs : List Int} (hcs : ∀ c ∈ cs, -128 ≤ c ∧ c ≤ 255) :
    literal W cs = (positional 10 cs).map fun n : Nat => constB ((n : Int) % 2 ^ W) := by
  have ⟨p1, p2⟩ := pow_facts hW
  have e := literalLoop_eq hW hcs 0
  have e0 : ((0 : Nat) : Int) % 2 ^ W = 0 := by simp
  rw [e0] at e
  have ep : positional 10 cs = (cs.filter (· ≠ 39)).foldl (positionalStep 10) (some 0) := rfl
  unfold literal
  rw [e, ep]
  cases (cs.filter (· ≠ 39)).foldl (positionalStep 10) (some 0) with
  | none => rfl
  | some n =>
    have h0 := Int.emod_nonneg (n : Int) (show (2 : Int) ^ W ≠ 0 by omega)
    have h1 := Int.emod_lt_of_pos (n : Int) (show (0 : Int) < 2 ^ W by omega)
    simp only [Option.map_some, Option.bind_eq_bind, Option.bind_some]
    rw [mkInteger_eq hW, if_pos (by unfold Storable; omega)]
    rfl

/-- C67: a decimal literal (it does not start with `0`, or it is `0`) whose value is
representable in the widest unsigned type denotes the constant with that value.

Partial: octal literals and larger numbers are accepted too but get another value, see
`C67_literal_octal_violated` and `C67_literal_overflow_violated`. -/
theorem C67_literal_partial (hW : 64 ≤ W) {cs : List Int} (hcs : ∀ c ∈ cs, -128 ≤ c ∧ c ≤ 255)
    (hd : cs.head? ≠ some 48 ∨ cs = [48]) {n : Nat} (hn : literalValue cs = some n) (hlt : (n : Int) < 2 ^ W) :
    literal W cs = some (constB n) := by
  have hp : positional 10 cs = some n := by
    rcases hd with hd | rfl
    · have : literalValue cs = positional 10 cs := by
        unfold literalValue
        split <;> first | rfl | (exfalso; exact hd rfl)
      rw [← this]; exact hn
    · have : n = 0 := by
        have e : literalValue [48] = some 0 := rfl
        rw [e] at hn; simpa using hn.symm
      subst this; rfl
  rw [C67_literal_exact hW hcs, hp]
  simp only [Option.map_some]
  rw [Int.emod_eq_of_lt (by omega) hlt]

/-- C67: hexadecimal and binary literals are rejected rather than misread. -/
theorem C67_literal_prefix (hW : 64 ≤ W) {c : Int} {r : List Int} (hc : c = 120 ∨ c = 88 ∨ c = 98 ∨ c = 66)
    (hcs : ∀ c ∈ r, -128 ≤ c ∧ c ≤ 255) : literal W (48 :: c :: r) = none := by
  rw [C67_literal_exact hW (by
    intro d hd
    simp only [List.mem_cons] at hd
    rcases hd with rfl | rfl | hd
    · omega
    · omega
    · exact hcs d hd)]
  have h39 : c ≠ 39 := by omega
  have ep : positional 10 (48 :: c :: r) = ((48 :: c :: r).filter (· ≠ 39)).foldl (positionalStep 10) (some 0) := rfl
  rw [ep, List.filter_cons_of_pos (by simp), List.filter_cons_of_pos (by simp [h39]), List.foldl_cons,
    List.foldl_cons]
  have es : positionalStep 10 (positionalStep 10 (some 0) 48) c = none := by
    rcases hc with rfl | rfl | rfl | rfl <;> rfl
  rw [es, positional_none]
  rfl

/-- C67 is violated for every decimal number that is not representable in the widest
unsigned type: the literal is accepted without a diagnostic and denotes another number. -/
theorem C67_literal_overflow_violated (hW : 64 ≤ W) {cs : List Int} (hcs : ∀ c ∈ cs, -128 ≤ c ∧ c ≤ 255)
    {n : Nat} (hn : positional 10 cs = some n) (hbig : 2 ^ W ≤ (n : Int)) :
    ∃ v, literal W cs = some (constB v) ∧ v ≠ n := by
  have ⟨p1, p2⟩ := pow_facts hW
  rw [C67_literal_exact hW hcs, hn]
  have h1 := Int.emod_lt_of_pos (n : Int) (show (0 : Int) < 2 ^ W by omega)
  exact ⟨_, rfl, by omega⟩

end

/-- C67 is violated for octal literals: `010` is eight, `010_bi` is ten. -/
theorem C67_literal_octal_violated :
    literalValue [48, 49, 48] = some 8 ∧ literal 128 [48, 49, 48] = some (constB 10) := by
  decide +kernel

/-- The hypotheses of `C67_literal_overflow_violated` are met by `18446744073709551616`,
the least number not representable in 64 bits: the constant is zero. -/
example : positional 10 [49, 56, 52, 52, 54, 55, 52, 52, 48, 55, 51, 55, 48, 57, 53, 53, 49, 54, 49, 54] =
      some (2 ^ 64) ∧
    literal 64 [49, 56, 52, 52, 54, 55, 52, 52, 48, 55, 51, 55, 48, 57, 53, 53, 49, 54, 49, 54] =
      some (constB 0) := by
  decide +kernel

/-- The hypotheses of `C67_literal_partial` are met by `1'000`. -/
example : literalValue [49, 39, 48, 48, 48] = some 1000 ∧ literal 128 [49, 39, 48, 48, 48] = some (constB 1000) := by
  decide +kernel

end Verif.Bounded
