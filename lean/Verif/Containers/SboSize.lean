import Verif.Bounded.Shift

/-!
# The size of a small-buffer vector (property C29)

source/containers/sbo_vector.cpp 57-87: the size is stored as a prefix of its bytes, and a last
byte that shares its storage with the flag that says whether the vector is large. Lengths are
for arbitrary maximum sizes. The byte order is little endian (lines 41-42, 66-70 rely on it:
the last byte in memory is the most significant one).
-/

namespace Verif.Containers

open Verif Verif.Bounded

/-- The object representation of an unsigned value of `k` bytes, least significant first. -/
def toBytes : Nat → Nat → List Nat
  | 0, _ => []
  | k + 1, n => n % 256 :: toBytes k (n / 256)

/-- The value with the given object representation. -/
def fromBytes : List Nat → Nat
  | [] => 0
  | b :: bs => b + 256 * fromBytes bs

/-- source/containers/sbo_vector.cpp 62-63 `size_and_bit<integer<0, m>>`; `none` when it does not
compile. -/
def sizeAndBit (W m : Nat) : Option Rng :=
  match shlTy W ⟨0, m⟩ ⟨1, 1⟩ with
  | none => none
  | some (r, _) => plusTy W r ⟨0, 1⟩

/-- `bounded::size_of<size_and_bit<integer<0, m>>>` (`sbo_vector.cpp` 67). -/
def sizeBytes (W m : Nat) : Nat := (((sizeAndBit W m).getD ⟨0, 0⟩).under W).bits / 8

/-- source/containers/sbo_vector.cpp 72-75 `split_size_bytes<integer<0, m>>(n)`, as stored by
`set_size_impl` (82-87): the first bytes, and the last one, of which the member `size` of
`last_byte_t` (line 58) keeps seven bits. -/
def splitSize (W m n : Nat) : List Nat × Nat :=
  let bytes := toBytes (sizeBytes W m) n
  (bytes.take (sizeBytes W m - 1), bytes.getD (sizeBytes W m - 1) 0 % 128)

/-- source/containers/sbo_vector.cpp 77-80 `recombine_size<integer<0, m>>`: `none` when
`assume_in_range` is violated. -/
def recombineSize (m : Nat) (first : List Nat) (last : Nat) : Option Nat :=
  if fromBytes (first ++ [last]) ≤ m then some (fromBytes (first ++ [last])) else none

/-! ### Facts -/

theorem toBytes_length : ∀ k n, (toBytes k n).length = k
  | 0, _ => rfl
  | k + 1, n => by simp [toBytes, toBytes_length k]

theorem fromBytes_toBytes : ∀ k n, n < 256 ^ k → fromBytes (toBytes k n) = n
  | 0, n, h => by simp at h; subst h; rfl
  | k + 1, n, h => by
    have h1 : n / 256 < 256 ^ k := by
      rw [Nat.div_lt_iff_lt_mul (by decide)]
      rw [Nat.pow_succ] at h; exact h
    simp only [toBytes, fromBytes, fromBytes_toBytes k _ h1]
    omega

theorem toBytes_last : ∀ k n, (toBytes (k + 1) n).getD k 0 = n / 256 ^ k % 256
  | 0, n => by simp [toBytes]
  | k + 1, n => by
    show (n % 256 :: toBytes (k + 1) (n / 256)).getD (k + 1) 0 = _
    rw [List.getD_cons_succ, toBytes_last k (n / 256), Nat.div_div_eq_div_mul]
    congr 2
    rw [Nat.pow_succ, Nat.mul_comm]

theorem take_getD (l : List Nat) (k : Nat) (h : l.length = k + 1) : l.take k ++ [l.getD k 0] = l := by
  have h2 : l.getD k 0 = l[k] := by rw [List.getD_eq_getElem?_getD, List.getElem?_eq_getElem (by omega)]; rfl
  rw [h2, List.take_append_getElem]
  exact List.take_of_length_le (by omega)

/-- The type with room for the size and one more bit. -/
theorem sizeAndBit_eq {W m : Nat} (hW : 64 ≤ W) (hm : m < 2 ^ 63) {r : Rng} (h : sizeAndBit W m = some r) :
    r = ⟨0, 2 * m + 1⟩ ∧ r.Wf W := by
  have p := pow_facts hW
  have h63 : (2 : Int) ^ 63 ≤ 2 ^ (W - 1) := CTy.two_pow_le (by omega)
  have hm' : (m : Int) < 2 ^ 63 := by exact_mod_cast hm
  simp only [sizeAndBit] at h
  cases hs : shlTy W ⟨0, m⟩ ⟨1, 1⟩ with
  | none => rw [hs] at h; cases h
  | some q =>
    obtain ⟨q, c⟩ := q
    rw [hs] at h
    simp only at h
    have e1 : (smax W).wrap 0 = 0 := smax_wrap_of hW (by omega) (by omega)
    have e2 : (smax W).wrap (m : Int) = m := smax_wrap_of hW (by omega) (by omega)
    have hb : (1 : Int) < (smax W).bits := by show (1 : Int) < (W : Int); omega
    have hsh : ∀ v : Int, (smax W).shl v 1 = .ok ((smax W).wrap (v * 2)) := by
      intro v; simp only [CTy.shl]; rw [if_pos ⟨by decide, hb⟩]; rfl
    simp only [shlTy, e1, e2, hsh, constEval, Option.bind_eq_bind, Option.bind_some, Int.zero_mul, Option.bind_eq_some_iff,
      Option.pure_def, Option.some.injEq, Prod.mk.injEq] at hs
    obtain ⟨q', hq, _, _, rfl, _⟩ := hs
    obtain ⟨rfl, hle, hst⟩ := mkInteger_some hW hq
    have hwf : (⟨0, (smax W).wrap (↑m * 2)⟩ : Rng).Wf W := hq
    have h01 : (⟨0, 1⟩ : Rng).Wf W := (wf_iff hW _).2 ⟨by decide, .inl ⟨by decide, by simp only; omega⟩⟩
    rw [plusTy_eq hW hwf h01] at h
    have hhi : (smax W).wrap (↑m * 2) = 2 * m := by
      by_cases hfit : (m : Int) * 2 < 2 ^ (W - 1)
      · rw [smax_wrap_of hW (by omega) hfit]; omega
      · exfalso
        have : (smax W).wrap (↑m * 2) = m * 2 - 2 ^ W := by
          show (if _ < _ then _ else _) = _
          have hmod : (m : Int) * 2 % 2 ^ (smax W).bits = m * 2 :=
            Int.emod_eq_of_lt (by omega) (by show (m : Int) * 2 < 2 ^ W; omega)
          have hfit' : ¬ ((m : Int) * 2 < 2 ^ ((smax W).bits - 1)) := hfit
          rw [hmod, if_neg hfit']; rfl
        rw [this] at hle
        omega
    obtain ⟨rfl, _, _⟩ := mkInteger_some hW h
    exact ⟨by simp [hhi], h⟩

theorem sizeBytes_spec {W m : Nat} (hW : 64 ≤ W) (hm : m < 2 ^ 63) (h : sizeAndBit W m ≠ none) :
    1 ≤ sizeBytes W m ∧ 2 * m + 1 < 256 ^ sizeBytes W m := by
  obtain ⟨r, hr⟩ := Option.ne_none_iff_exists'.1 h
  obtain ⟨rfl, hwf⟩ := sizeAndBit_eq hW hm hr
  have p := pow_facts hW
  have h63 : (2 : Int) ^ 64 ≤ 2 ^ W := CTy.two_pow_le hW
  have hm' : (m : Int) < 2 ^ 63 := by exact_mod_cast hm
  have hrep := hwf.rep hW
  have key : ∀ t, (⟨0, 2 * m + 1⟩ : Rng).under W = t → t.bits % 8 = 0 → 8 ≤ t.bits →
      (2 * (m : Int) + 1 < 2 ^ t.bits) → 1 ≤ sizeBytes W m ∧ 2 * m + 1 < 256 ^ sizeBytes W m := by
    intro t ht h8 hge hlt
    have e : sizeBytes W m = t.bits / 8 := by simp only [sizeBytes, hr, Option.getD_some, ht]
    rw [e]
    refine ⟨by omega, ?_⟩
    have : (256 : Nat) ^ (t.bits / 8) = 2 ^ t.bits := by
      have hb : t.bits = 8 * (t.bits / 8) := by omega
      have h256 : (2 : Nat) ^ 8 = 256 := by norm_num
      calc (256 : Nat) ^ (t.bits / 8) = (2 ^ 8) ^ (t.bits / 8) := by rw [h256]
        _ = 2 ^ (8 * (t.bits / 8)) := (Nat.pow_mul 2 8 _).symm
        _ = 2 ^ t.bits := by rw [← hb]
    rw [this]
    exact_mod_cast hlt
  have hdt : (⟨0, 2 * m + 1⟩ : Rng).under W = ((candidates W).find? fun t => decide (t.Fits 0 ∧ t.Fits (2 * m + 1))).getD ⟨true, 8⟩ := by
    simp only [Rng.under, determineType_first hW hrep.1 hrep.2]
  obtain ⟨fs, ls, hc, hmem, hall⟩ : ∃ fs ls, candidates W = fs ++ ls ∧ (⟨false, 64⟩ : CTy) ∈ fs ∧
      ∀ t ∈ fs, t.bits % 8 = 0 ∧ 8 ≤ t.bits := ⟨_, _, rfl, by simp, by decide⟩
  have hfit : decide ((⟨false, 64⟩ : CTy).Fits 0 ∧ (⟨false, 64⟩ : CTy).Fits (2 * m + 1)) = true := by
    simp only [CTy.Fits, CTy.lo, CTy.hi, Bool.false_eq_true, if_false]
    exact decide_eq_true ⟨⟨by omega, by norm_num⟩, by omega, by norm_num; omega⟩
  have hsome : (fs.find? fun t => decide (t.Fits 0 ∧ t.Fits (2 * m + 1))).isSome :=
    List.find?_isSome.2 ⟨_, hmem, hfit⟩
  obtain ⟨t, ht⟩ := Option.isSome_iff_exists.1 hsome
  rw [hc, List.find?_append, ht] at hdt
  have hf : t.Fits 0 ∧ t.Fits (2 * m + 1) := by
    have := List.find?_some ht
    simpa using this
  obtain ⟨h8, h9⟩ := hall t (List.mem_of_find?_eq_some ht)
  exact key t hdt h8 h9 (lt_of_fits hf.2)

/-- What C29 needs of a maximum size `m`: the assertion of lines 169-172, and that the type with
room for one more bit exists. -/
structure SizeOk (W m : Nat) : Prop where
  wide : 64 ≤ W
  bound : m < 2 ^ 63
  compiles : sizeAndBit W m ≠ none

theorem split_bytes {W m n : Nat} (h : SizeOk W m) (hn : n ≤ m) :
    (splitSize W m n).1 ++ [(splitSize W m n).2] = toBytes (sizeBytes W m) n := by
  obtain ⟨h1, h2⟩ := sizeBytes_spec h.wide h.bound h.compiles
  obtain ⟨k, hk⟩ : ∃ k, sizeBytes W m = k + 1 := ⟨sizeBytes W m - 1, by omega⟩
  rw [hk, Nat.pow_succ] at h2
  have hlt : n / 256 ^ k < 128 := by
    rw [Nat.div_lt_iff_lt_mul (Nat.pow_pos (by decide))]; omega
  simp only [splitSize, hk, Nat.add_sub_cancel]
  rw [show (toBytes (k + 1) n).getD k 0 % 128 = (toBytes (k + 1) n).getD k 0 by
    rw [toBytes_last, Nat.mod_eq_of_lt (by omega : n / 256 ^ k < 256), Nat.mod_eq_of_lt hlt]]
  exact take_getD _ _ (toBytes_length _ _)

/-- C29: splitting a size and recombining it returns the size. -/
theorem C29_round_trip {W m n : Nat} (h : SizeOk W m) (hn : n ≤ m) :
    recombineSize m (splitSize W m n).1 (splitSize W m n).2 = some n := by
  obtain ⟨h1, h2⟩ := sizeBytes_spec h.wide h.bound h.compiles
  simp only [recombineSize, split_bytes h hn, fromBytes_toBytes _ _ (by omega : n < 256 ^ sizeBytes W m)]
  rw [if_pos hn]

theorem splitSize_last {W m n : Nat} : (splitSize W m n).2 < 128 := Nat.mod_lt _ (by decide)

/-! ### The last byte

`last_byte_t` (lines 57-60) is one byte: the member `size` occupies the low seven bits and
`is_large` the highest one (the layout of bit-fields by the usual ABI). -/

/-- Reading `last_byte.size`. -/
def lastSize (b : Nat) : Nat := b % 128

/-- Reading `last_byte.is_large`. -/
def lastLarge (b : Nat) : Bool := decide (b / 128 % 2 = 1)

/-- `last_byte.size = n` (`sbo_vector.cpp` 86, 351). -/
def setLastSize (b n : Nat) : Nat := b / 128 * 128 + n % 128

/-- `last_byte.is_large = f` (`sbo_vector.cpp` 271, 279, 314, 352). -/
def setLastLarge (b : Nat) (f : Bool) : Nat := b % 128 + if f then 128 else 0

/-- C29: in the shared last byte, setting the size never changes the flag and setting the flag
never changes the size; each can be read back (a size part of a valid size has at most seven
bits). -/
theorem C29_last_byte {b : Nat} (hb : b < 256) (n : Nat) (f : Bool) :
    lastLarge (setLastSize b n) = lastLarge b ∧ lastSize (setLastLarge b f) = lastSize b ∧
      (n < 128 → lastSize (setLastSize b n) = n) ∧ lastLarge (setLastLarge b f) = f ∧
      setLastSize b n < 256 ∧ setLastLarge b f < 256 := by
  refine ⟨?_, ?_, ?_, ?_, ?_, ?_⟩
  · unfold lastLarge
    congr 3
    unfold setLastSize; omega
  · cases f <;> simp only [lastSize, setLastLarge] <;> (try simp) <;> omega
  · intro hn; simp only [lastSize, setLastSize]; omega
  · cases f <;> simp only [lastLarge, setLastLarge] <;> simp <;> omega
  · simp only [setLastSize]; omega
  · cases f <;> simp only [setLastLarge] <;> simp <;> omega

/-- A large vector whose size changes, and a small one that becomes large. -/
example : lastLarge (setLastSize 129 77) = true ∧ lastSize (setLastSize 129 77) = 77 ∧
    lastSize (setLastLarge 17 true) = 17 := by decide

/-- `std::string`-like vectors of up to 2^32 elements, and a small buffer of 23: eight bytes and
one byte. -/
example : sizeBytes 64 4294967296 = 8 ∧ sizeBytes 64 23 = 1 ∧ sizeBytes 64 127 = 1 ∧ sizeBytes 64 128 = 2 ∧
    splitSize 64 4294967296 305419896 = ([120, 86, 52, 18, 0, 0, 0], 0) ∧ splitSize 64 23 17 = ([], 17) := by
  decide +kernel

example : SizeOk 64 4294967296 ∧ SizeOk 64 23 := ⟨⟨by decide, by decide, by decide +kernel⟩, ⟨by decide, by decide, by decide +kernel⟩⟩

end Verif.Containers
