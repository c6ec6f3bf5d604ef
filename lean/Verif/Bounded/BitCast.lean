import Verif.Bounded.ToString

/-!
# Property C109: bits, hashes and formatted text of bounded integers

`checked_bit_cast<T>(source)` reinterprets the bytes of any trivially copyable object
as the storage type of `T` and checks the result; `std::hash` and `std::formatter` are
specialised through the storage type. The standard library's own `std::hash` and
`std::formatter` of the built-in types are parameters.
-/

namespace Verif.Bounded

open Verif

/-- `std::bit_cast<To>(source)` for an integer type `To`: `size` is the number of bits
of the source and `n` its object representation read as one number (byte order is the
platform's and is the same on both sides). Ill-formed unless the sizes agree. -/
def bitCast (t : CTy) (size : Nat) (n : Nat) : Option Int := if size = t.bits then some (t.wrap n) else none

/-- source/bounded/checked_bit_cast.cpp 15-18 `checked_bit_cast<T>(source)` with
`T = integer<r.lo, r.hi>`. -/
def checkedBitCast (W : Nat) (r : Rng) (size n : Nat) : Option (Res BInt) := do
  checkInRangeTarget W r (.builtin (r.under W) (← bitCast (r.under W) size n))

/-- source/bounded/hash.cpp 13-20: `std::hash<integer<lo, hi>>`. The conversion
`static_cast<underlying_type>(argument)` reads the value (source/bounded/integer.cpp
152-155, 198-201). -/
def hashB (W : Nat) (std : CTy → Int → Nat) (b : BInt) : Res Nat := do
  return std (b.rng.under W) ((b.rng.under W).wrap (← b.value))

/-- source/bounded/format.cpp 12-23: `std::formatter<integer<lo, hi>>`. The format
specification is parsed by the storage type's formatter (`using base::parse`), which
also writes the value. -/
def formatB {S : Type} (W : Nat) (std : CTy → S → Int → List Int) (spec : S) (b : BInt) : Res (List Int) := do
  return std (b.rng.under W) spec (← b.value)

/-! ## Specification -/

/-- The object representation of the value `x` in `bits` bits of two's complement. -/
def pattern (bits : Nat) (x : Int) : Nat := (x % 2 ^ bits).toNat

variable {W : Nat}

theorem pattern_cast (bits : Nat) (x : Int) : (pattern bits x : Int) = x % 2 ^ bits := by
  have := Int.emod_nonneg x (show (2 : Int) ^ bits ≠ 0 from (CTy.two_pow_pos bits).ne')
  unfold pattern
  omega

/-- A pattern and the value read from it determine each other. -/
theorem wrap_pattern {t : CTy} (hb : 1 ≤ t.bits) {n : Nat} (hn : n < 2 ^ t.bits) {x : Int} (hx : t.Fits x) :
    t.wrap n = x ↔ pattern t.bits x = n := by
  have hn' : (n : Int) % 2 ^ t.bits = n := Int.emod_eq_of_lt (by omega) (by exact_mod_cast hn)
  have hp := pattern_cast t.bits x
  constructor
  · intro h
    have := CTy.wrap_emod t n
    rw [h, hn', ← hp] at this
    exact_mod_cast this
  · intro h
    rw [h] at hp
    rw [← CTy.wrap_of_fits hb hx]
    exact CTy.wrap_congr (by rw [hn', hp])

theorem checkTarget_builtin (hW : 64 ≤ W) {r : Rng} (hr : r.Wf W) {t : CTy} (ht : Ty W t) {v : Int} (hf : t.Fits v)
    (hlap : r.lo ≤ t.hi ∧ t.lo ≤ r.hi) : checkInRangeTarget W r (.builtin t v) ≠ none := by
  have ⟨p1, p2⟩ := pow_facts hW
  have rr := hr.rep hW
  have w := (wf_iff hW _).mp hr
  have ha : ArgHolds W (.builtin t v) v := ⟨ht, hf, rfl⟩
  have wt := rng_wf_of_ty hW ht
  have tt := wt.rep hW
  have st := (wf_iff hW _).mp wt
  have tb := ty_bounds hW ht
  have hmk : mkInteger W (max r.lo t.lo) (min r.hi t.hi) = some ⟨max r.lo t.lo, min r.hi t.hi⟩ := by
    rw [mkInteger_eq hW, if_pos]
    unfold Storable at *
    simp only at *
    omega
  have h0 : checkInRange W (.builtin t v) (.bounded (constB r.lo)) (.bounded (constB r.hi)) ≠ none := by
    unfold checkInRange assumeImplArg
    simp only [Arg.rng, constB]
    rw [safeMax_eq hW rr.1 tt.1, safeMin_eq hW rr.2 tt.2, hmk]
    simp only [Option.bind_eq_bind, Option.bind_some]
    have ho : Rng.overlaps W ⟨t.lo, t.hi⟩ ⟨max r.lo t.lo, min r.hi t.hi⟩ = true := by
      rw [overlaps_eq hW wt (wf_of_mk hW hmk)]
      simp
      omega
    simp [Arg.read, ho]
  have sp := checkInRange_spec hW ha (lo := .bounded (constB r.lo)) (hi := .bounded (constB r.hi))
    (constB_holds hW rr.1) (constB_holds hW rr.2) h0 trivial trivial
  unfold checkInRangeTarget
  by_cases hin : r.lo ≤ v ∧ v ≤ r.hi
  · obtain ⟨c, c1, c2, c3⟩ := sp.1 hin
    rw [c1]
    simp only [Option.bind_eq_bind, Option.bind_some]
    split
    · simp
    · obtain ⟨d, d1, _⟩ := convert_holds hW hr c3 (by rw [c2]; simp only [Arg.rng, constB]; omega)
      rw [d1]; simp
  · rw [sp.2 hin]; simp

theorem bitCast_ty (hW : 64 ≤ W) {r : Rng} (hr : r.Wf W) :
    Ty W (r.under W) ∧ 1 ≤ (r.under W).bits ∧ r.lo ≤ (r.under W).hi ∧ (r.under W).lo ≤ r.hi ∧
      ∀ x, r.lo ≤ x → x ≤ r.hi → (r.under W).Fits x := by
  have us := under_spec hW hr
  have w := ((wf_iff hW _).mp hr).1
  have h1 := us.2 r.lo ⟨by omega, by omega⟩
  have h2 := us.2 r.hi ⟨by omega, by omega⟩
  exact ⟨us.1, us.1.1, h1.2, h2.1, fun x a b => us.2 x ⟨a, b⟩⟩

/-- C109: `checked_bit_cast<T>(source)` is accepted exactly when the source has as many
bits as the storage of `T`, whatever its type. -/
theorem C109_bit_cast_accepts (hW : 64 ≤ W) {r : Rng} (hr : r.Wf W) (size n : Nat) :
    checkedBitCast W r size n ≠ none ↔ size = (r.under W).bits := by
  obtain ⟨ht, hb, l1, l2, _⟩ := bitCast_ty hW hr
  unfold checkedBitCast bitCast
  split
  · rename_i h
    simp only [h, iff_true, Option.bind_eq_bind, Option.bind_some]
    exact checkTarget_builtin hW hr ht (CTy.wrap_fits hb _) ⟨l1, l2⟩
  · rename_i h
    simp [h]

/-- C109: for every bit pattern the cast gives the value of the target range which has
that pattern as its representation, and throws when no value of the range has it. -/
theorem C109_bit_cast_exact (hW : 64 ≤ W) {r : Rng} (hr : r.Wf W) {n : Nat} (hn : n < 2 ^ (r.under W).bits) :
    (∀ x, r.lo ≤ x → x ≤ r.hi → pattern (r.under W).bits x = n →
      Yields (checkedBitCast W r (r.under W).bits n) r x) ∧
    ((∀ x, r.lo ≤ x → x ≤ r.hi → pattern (r.under W).bits x ≠ n) →
      checkedBitCast W r (r.under W).bits n = some .exn) := by
  obtain ⟨ht, hb, l1, l2, hf⟩ := bitCast_ty hW hr
  have hv : ArgHolds W (.builtin (r.under W) ((r.under W).wrap n)) ((r.under W).wrap n) :=
    ⟨ht, CTy.wrap_fits hb _, rfl⟩
  have sp := C13_check_in_range_target hW hr hv (checkTarget_builtin hW hr ht (CTy.wrap_fits hb _) ⟨l1, l2⟩)
  have e : checkedBitCast W r (r.under W).bits n =
      checkInRangeTarget W r (.builtin (r.under W) ((r.under W).wrap n)) := by
    unfold checkedBitCast bitCast
    rw [if_pos rfl]
    rfl
  rw [e]
  refine ⟨fun x a b hx => ?_, fun hx => sp.2 fun ⟨a, b⟩ => ?_⟩
  · have := (wrap_pattern hb hn (hf x a b)).mpr hx
    rw [this] at sp ⊢
    exact sp.1 ⟨a, b⟩
  · exact hx _ a b ((wrap_pattern hb hn (hf _ a b)).mp rfl)

/-- C109: two different values of one type have different representations, so at most
one value can come out of the cast. -/
theorem C109_pattern_injective (hW : 64 ≤ W) {r : Rng} (hr : r.Wf W) {x y : Int} (hx : r.lo ≤ x ∧ x ≤ r.hi)
    (hy : r.lo ≤ y ∧ y ≤ r.hi) (h : pattern (r.under W).bits x = pattern (r.under W).bits y) : x = y := by
  obtain ⟨_, hb, _, _, hf⟩ := bitCast_ty hW hr
  have hn : pattern (r.under W).bits x < 2 ^ (r.under W).bits := by
    have := pattern_cast (r.under W).bits x
    have h2 := Int.emod_lt_of_pos x (CTy.two_pow_pos (r.under W).bits)
    rw [← this] at h2
    exact_mod_cast h2
  rw [← (wrap_pattern hb hn (hf x hx.1 hx.2)).mpr rfl]
  exact (wrap_pattern hb hn (hf y hy.1 hy.2)).mpr h.symm

/-- C109: casting the bits of a value of the type back gives the value. -/
theorem C109_bit_cast_round_trip (hW : 64 ≤ W) {b : BInt} {x : Int} (hb : Holds W b x) :
    Yields (checkedBitCast W b.rng (b.rng.under W).bits (pattern (b.rng.under W).bits x)) b.rng x := by
  have m := value_mem hb.2 ((wf_iff hW _).mp hb.1).1
  have h2 := Int.emod_lt_of_pos x (CTy.two_pow_pos (b.rng.under W).bits)
  rw [← pattern_cast] at h2
  exact (C109_bit_cast_exact hW hb.1 (by exact_mod_cast h2)).1 x m.1 m.2 rfl

/-- C109: hashing gives the standard library's hash of the value in the storage type. -/
theorem C109_hash_exact (hW : 64 ≤ W) (std : CTy → Int → Nat) {b : BInt} {x : Int} (hb : Holds W b x) :
    hashB W std b = .ok (std (b.rng.under W) x) := by
  obtain ⟨_, h1, _, _, hf⟩ := bitCast_ty hW hb.1
  have m := value_mem hb.2 ((wf_iff hW _).mp hb.1).1
  unfold hashB
  rw [hb.2]
  simp only [Res.ok_bind, Res.pure_def]
  rw [CTy.wrap_of_fits h1 (hf x m.1 m.2)]

/-- C109: objects that hold the same value have the same hash whenever their types have
the same storage, in particular two objects of one type; what a hashed container needs. -/
theorem C109_hash_respects_equality (hW : 64 ≤ W) (std : CTy → Int → Nat) {a b : BInt} {x : Int}
    (ha : Holds W a x) (hb : Holds W b x) (hs : a.rng.under W = b.rng.under W) : hashB W std a = hashB W std b := by
  rw [C109_hash_exact hW std ha, C109_hash_exact hW std hb, hs]

/-- C109: formatting a bounded integer, with any format specification, writes what the
storage type's formatter writes for the value, which that formatter is never asked to
write out of its range. -/
theorem C109_format_exact {S : Type} (hW : 64 ≤ W) (std : CTy → S → Int → List Int) (spec : S) {b : BInt} {x : Int}
    (hb : Holds W b x) : formatB W std spec b = .ok (std (b.rng.under W) spec x) ∧ (b.rng.under W).Fits x := by
  obtain ⟨_, _, _, _, hf⟩ := bitCast_ty hW hb.1
  have m := value_mem hb.2 ((wf_iff hW _).mp hb.1).1
  refine ⟨?_, hf x m.1 m.2⟩
  unfold formatB
  rw [hb.2]
  rfl

/-- C109: the hash separates values as well as the standard library's hash does. -/
theorem C109_hash_separates (hW : 64 ≤ W) {std : CTy → Int → Nat} {r : Rng}
    (hi : ∀ x y, (r.under W).Fits x → (r.under W).Fits y → std (r.under W) x = std (r.under W) y → x = y) {a b : BInt} {x y : Int} (ha : Holds W a x)
    (hb : Holds W b y) (ra : a.rng = r) (rb : b.rng = r) : hashB W std a = hashB W std b ↔ x = y := by
  have fa := (C109_format_exact hW (fun _ (_ : Unit) _ => []) () ha).2
  have fb := (C109_format_exact hW (fun _ (_ : Unit) _ => []) () hb).2
  rw [C109_hash_exact hW std ha, C109_hash_exact hW std hb, ra, rb]
  exact ⟨fun h => hi x y (ra ▸ fa) (rb ▸ fb) (by injection h), fun h => by rw [h]⟩

/-- C109: equal values of types with different storage may hash differently, as the
standard library is free to hash every built-in type in its own way: `5` as
`integer<0, 10>` and as `integer<0, 200>`. -/
theorem C109_hash_of_another_type :
    ∃ (std : CTy → Int → Nat) (a b : BInt), Holds 128 a 5 ∧ Holds 128 b 5 ∧ hashB 128 std a ≠ hashB 128 std b :=
  ⟨fun t x => if t.signed then x.toNat else x.toNat + 1, ⟨⟨0, 10⟩, 5⟩, ⟨⟨0, 200⟩, 5⟩,
    ⟨by decide +kernel, by decide +kernel⟩, ⟨by decide +kernel, by decide +kernel⟩, by decide +kernel⟩

/-- C109: with a formatter that writes decimal numbers by default, `std::format("{}", x)`
writes the same text as `to_string`. -/
theorem C109_format_is_to_string {S : Type} (hW : 64 ≤ W) {std : CTy → S → Int → List Int} {dflt : S}
    (hs : ∀ t x, Ty W t → t.Fits x → std t dflt x = canonical x) {b : BInt} {x : Int} (hb : Holds W b x)
    (hc : abs W b ≠ none) : ∃ s, formatB W std dflt b = .ok s ∧ toAnyString W b = some (.ok s) := by
  obtain ⟨ht, _, _, _, _⟩ := bitCast_ty hW hb.1
  have f := C109_format_exact hW std dflt hb
  refine ⟨canonical x, ?_, C16_to_string_exact hW hb hc⟩
  rw [f.1, hs _ _ ht f.2]

/-- C109: what `std::format("{}", x)` writes is read back by `to_integer` as the same
value, and different values are written differently. -/
theorem C109_format_round_trip {S : Type} (hW : 64 ≤ W) {std : CTy → S → Int → List Int} {dflt : S}
    (hs : ∀ t x, Ty W t → t.Fits x → std t dflt x = canonical x) {b : BInt} {x : Int} (hb : Holds W b x)
    (hc : abs W b ≠ none) (hM : 10 * maxMagnitude b.rng.lo b.rng.hi + 9 < 2 ^ W) :
    ∃ s, formatB W std dflt b = .ok s ∧ Yields (toInteger W b.rng.lo b.rng.hi s) b.rng x := by
  obtain ⟨s, h1, h2⟩ := C109_format_is_to_string hW hs hb hc
  obtain ⟨s', h3, h4⟩ := C16_round_trip hW hb hc hM
  rw [h2] at h3
  injection h3 with h3
  injection h3 with h3
  exact ⟨s, h1, h3 ▸ h4⟩

/-! ## Examples -/

/-- `checked_bit_cast<integer<-5, 10>>(std::byte{0xFE})` is `-2`, of `0x7F` it throws and
two bytes are not accepted. -/
example : (Rng.mk (-5) 10).Wf 128 ∧ checkedBitCast 128 ⟨-5, 10⟩ 8 254 = some (.ok ⟨⟨-5, 10⟩, -2⟩) ∧
    checkedBitCast 128 ⟨-5, 10⟩ 8 127 = some .exn ∧ checkedBitCast 128 ⟨-5, 10⟩ 16 254 = none ∧
    pattern 8 (-2) = 254 := by decide +kernel
/-- The unsigned storage of `integer<0, 200>` reads the same byte as `254`, which is out of
range; `200` is in range. -/
example : (Rng.mk 0 200).Wf 128 ∧ checkedBitCast 128 ⟨0, 200⟩ 8 254 = some .exn ∧
    checkedBitCast 128 ⟨0, 200⟩ 8 200 = some (.ok ⟨⟨0, 200⟩, 200⟩) := by decide +kernel
/-- The hypotheses on the formatter are met by one that ignores its specification. -/
example : ∃ std : CTy → Unit → Int → List Int, (∀ t x, Ty 128 t → t.Fits x → std t () x = canonical x) ∧
    formatB 128 std () ⟨⟨-5, 10⟩, -2⟩ = .ok [45, 50] ∧ abs 128 ⟨⟨-5, 10⟩, -2⟩ ≠ none ∧
    10 * maxMagnitude (-5) 10 + 9 < 2 ^ 128 :=
  ⟨fun _ _ x => canonical x, fun _ _ _ _ => rfl, by decide +kernel, by decide +kernel, by decide +kernel⟩
/-- A hash that converts the value to `std::size_t` separates the values of `integer<-5, 10>`. -/
example : ∀ x y : Int, ((Rng.mk (-5) 10).under 128).Fits x → ((Rng.mk (-5) 10).under 128).Fits y →
    (x % 2 ^ 64).toNat = (y % 2 ^ 64).toNat → x = y := by
  intro x y hx hy h
  rw [show (Rng.mk (-5) 10).under 128 = ⟨true, 8⟩ by decide +kernel] at hx hy
  unfold CTy.Fits CTy.lo CTy.hi at hx hy
  simp only [if_true] at hx hy
  omega
example : hashB 128 (fun _ x => x.toNat) ⟨⟨0, 10⟩, 5⟩ = .ok 5 ∧ hashB 128 (fun _ x => x.toNat) ⟨⟨0, 10⟩, 11⟩ = .ub := by
  decide +kernel

end Verif.Bounded
