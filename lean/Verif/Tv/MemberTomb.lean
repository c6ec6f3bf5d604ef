import Verif.Tv.OptionalNest

/-!
# Optionals of containers and variants (property C93)

A class lends the spare representations of one of its members: `tombstone_member`. The
library does so for `static_vector` (its size), for `variant` (its index, which in turn
lends those of an integer) and for `optional`. The theorems say that a type which lends
the representations of a lawful member is lawful again, so that everything proved about
nested optionals of integers holds for nested optionals of these types.
-/

namespace Verif.Tv

open Verif Bounded

variable {R A O B V : Type}

/-- source/bounded/tombstone.cpp 126-140 `tombstone_member<&Outer::member>`: `build` is
the constructor that takes a `tombstone_tag` and the member, `get` is `value.*pointer`.
`enc` is how the values of the outer type are represented. -/
def memberTomb (t : Tomb R A) (build : R → O) (get : O → R) (enc : B → O) : Tomb O B where
  spare := t.spare
  make i := build (t.make i)
  index o := t.index (get o)
  enc := enc

/-- C93: a class which lends the spare representations of a member has a lawful
`tombstone`, if the member of every value of the class is a value. -/
theorem C93_member_lawful {t : Tomb R A} (ht : t.Lawful) {build : R → O} {get : O → R} {enc : B → O}
    (hget : ∀ r, get (build r) = r) (hval : ∀ b, ∃ a, get (enc b) = t.enc a)
    (hinj : ∀ b c, enc b = enc c → b = c) : (memberTomb t build get enc).Lawful where
  index_make i hi := by
    simp only [memberTomb] at hi ⊢
    rw [hget]
    exact ht.index_make i hi
  index_enc b := by
    obtain ⟨a, ha⟩ := hval b
    simp only [memberTomb]
    rw [ha]
    exact ht.index_enc a
  enc_inj := hinj

/-- source/bounded/tombstone.cpp 47-55: the primary template, used among others for
constants (`integer<v, v>`, lines 41-45, 57): there is always an object, and `make` is
deleted, so what it gives here cannot be asked for. -/
def plainTomb (enc : A → R) (junk : R) : Tomb R A where
  spare := 0
  make _ := junk
  index _ := none
  enc := enc

theorem plainTomb_lawful {enc : A → R} {junk : R} (h : ∀ a b, enc a = enc b → a = b) :
    (plainTomb enc junk).Lawful :=
  ⟨fun i hi => by simp [plainTomb] at hi, fun _ => rfl, h⟩

/-- `bounded::tombstone<integer<lo, hi>>`: the primary template for constants, tombstone.cpp
57-86 for all others. -/
def anyIntTomb (W : Nat) (r : Rng) : Tomb BInt { x : Int // r.lo ≤ x ∧ x ≤ r.hi } :=
  if r.lo = r.hi then plainTomb (fun x => ⟨r, x.1⟩) ⟨r, r.lo⟩ else intTomb W r

theorem anyIntTomb_enc (W : Nat) (r : Rng) (x) : (anyIntTomb W r).enc x = ⟨r, x.1⟩ := by
  unfold anyIntTomb
  split <;> rfl

theorem anyIntTomb_lawful {W : Nat} (hW : 64 ≤ W) {r : Rng} (hwf : r.Wf W)
    (hc : r.lo ≠ r.hi → MakeCompiles W r ∧ IndexCompiles W r ∧ spareRepresentations W r ≠ none) :
    (anyIntTomb W r).Lawful := by
  unfold anyIntTomb
  split
  · exact plainTomb_lawful (fun a b e => by simp only [BInt.mk.injEq, true_and] at e; exact Subtype.ext e)
  · rename_i h
    exact C20_integers_lawful hW hwf h (hc h).1 (hc h).2.1 (hc h).2.2

theorem anyIntTomb_spare {W : Nat} (hW : 64 ≤ W) {r : Rng} (hwf : r.Wf W) (hne : r.lo ≠ r.hi)
    (hs : spareRepresentations W r ≠ none) :
    ((anyIntTomb W r).spare : Int) = ((r.under W).hi - (r.under W).lo + 1) - (r.hi - r.lo + 1) := by
  obtain ⟨rr, h⟩ := C19_spare_count hW hwf hs
  obtain ⟨u1, u2, u3, u4, u5⟩ := under_facts hW hwf
  unfold anyIntTomb
  rw [if_neg hne]
  simp only [intTomb, valueOf_yields h]
  omega

/-- A range within `[0, 2 ^ 64)` is stored in at most 64 bits. -/
theorem natRng_ok {W : Nat} (hW : 64 < W) {hi : Nat} (hh : hi < 2 ^ 64) :
    (⟨0, hi⟩ : Rng).Wf W ∧ ((⟨0, hi⟩ : Rng).under W).bits < W := by
  have p1 := pow_facts (W := W) (by omega)
  have hp : (2 : Int) ^ 64 ≤ 2 ^ (W - 1) := pow_le_pow_right₀ (by omega) (by omega)
  have h64 : (hi : Int) < 2 ^ 64 := by exact_mod_cast hh
  have hrep : Rep W 0 ∧ Rep W hi := by unfold Rep; omega
  refine ⟨(wf_iff (by omega) _).2 ⟨by simp only; omega, by unfold Storable; simp only; omega⟩, ?_⟩
  unfold Rng.under
  simp only
  rw [determineType_first (by omega) hrep.1 hrep.2]
  unfold candidates
  rw [List.find?_append]
  have hfit : (⟨false, 64⟩ : CTy).Fits 0 ∧ (⟨false, 64⟩ : CTy).Fits hi := by
    unfold CTy.Fits CTy.lo CTy.hi
    norm_num
    omega
  obtain ⟨t, ht⟩ := Option.isSome_iff_exists.1 (List.find?_isSome.2
    ⟨⟨false, 64⟩, by simp, by simpa using hfit⟩ :
      ([⟨true, 8⟩, ⟨false, 8⟩, ⟨true, 16⟩, ⟨false, 16⟩, ⟨false, 32⟩, ⟨true, 32⟩,
        ⟨false, 64⟩, ⟨true, 64⟩, ⟨false, 64⟩, ⟨true, 64⟩] : List CTy).find?
        (fun t => decide (t.Fits 0 ∧ t.Fits hi)) |>.isSome)
  rw [ht]
  have hm := List.mem_of_find?_eq_some ht
  simp only [Option.some_or, Option.getD_some]
  simp only [List.mem_cons, List.not_mem_nil, or_false] at hm
  rcases hm with rfl | rfl | rfl | rfl | rfl | rfl | rfl | rfl | rfl | rfl <;> simp only <;> omega

/-! ## static_vector -/

/-- source/containers/static_vector.cpp 145-146: the members of a `static_vector`. The
storage says for every position which object is there, if any. -/
@[ext] structure VecRep (V : Type) where
  storage : Nat → Option V
  size : BInt

/-- static_vector.cpp 146: the type of the size. -/
def sizeRng (cap : Nat) : Rng := ⟨0, cap⟩

/-- static_vector.cpp 140-146, 165-167: the `tombstone` of `static_vector<T, cap>`. The
constructor of lines 140-143 leaves the storage without objects. -/
def vecTomb (W cap : Nat) (V : Type) : Tomb (VecRep V) { xs : List V // xs.length ≤ cap } :=
  memberTomb (anyIntTomb W (sizeRng cap)) (fun n => ⟨fun _ => none, n⟩) VecRep.size
    (fun xs => ⟨fun i => xs.1[i]?, ⟨sizeRng cap, xs.1.length⟩⟩)

/-- C93: `static_vector<T, capacity>` has a lawful `tombstone` for every element type and
every capacity that an array can have. -/
theorem C93_static_vector_lawful {W cap : Nat} (hW : 64 < W) (hc : cap < 2 ^ 64) :
    (vecTomb W cap V).Lawful := by
  obtain ⟨hwf, hb⟩ : (sizeRng cap).Wf W ∧ ((sizeRng cap).under W).bits < W := natRng_ok hW hc
  replace hW : 64 ≤ W := by omega
  refine C93_member_lawful (anyIntTomb_lawful hW hwf fun _ => C19_compiles hW hwf hb) (fun _ => rfl) ?_ ?_
  · intro xs
    refine ⟨⟨xs.1.length, ?_⟩, ?_⟩
    · have := xs.2
      simp only [sizeRng]
      omega
    · rw [anyIntTomb_enc]
  · intro xs ys e
    refine Subtype.ext (List.ext_getElem? fun i => ?_)
    simp only [VecRep.mk.injEq] at e
    exact congrFun e.1 i

/-- C93: `static_vector<T, capacity>` offers every representation of its size beyond
`[0, capacity]`; with capacity zero there is none. -/
theorem C93_static_vector_spare {W cap : Nat} (hW : 64 < W) (hc : cap < 2 ^ 64) :
    ((vecTomb W cap V).spare : Int) =
      if cap = 0 then 0
      else ((sizeRng cap).under W).hi - ((sizeRng cap).under W).lo - cap := by
  obtain ⟨hwf, hb⟩ : (sizeRng cap).Wf W ∧ ((sizeRng cap).under W).bits < W := natRng_ok hW hc
  replace hW : 64 ≤ W := by omega
  show ((anyIntTomb W (sizeRng cap)).spare : Int) = _
  split
  · subst cap
    rfl
  · rw [anyIntTomb_spare hW hwf (by simp only [sizeRng]; omega) (C19_compiles hW hwf hb).2.2]
    simp only [sizeRng]
    omega

/-! ## variant -/

/-- source/tv/variant_index.cpp 19-22: the index type of a variant with `n` alternatives. -/
def indexRng (n : Nat) : Rng := ⟨0, (n : Int) - 1⟩

/-- source/tv/variant.cpp 266-267: the members of a variant: the index and the union, in
which an alternative lives or nothing (`uninitialized_union`). -/
structure VarRep (P : Nat → Type) where
  index : BInt
  data : Option (Sigma P)

/-- variant_index.cpp 57-71: `variant_index` lends the representations of the integer it
holds; it consists of nothing else. -/
def variantIndexTomb (W n : Nat) : Tomb BInt { x : Int // (indexRng n).lo ≤ x ∧ x ≤ (indexRng n).hi } :=
  memberTomb (anyIntTomb W (indexRng n)) id id (anyIntTomb W (indexRng n)).enc

/-- variant.cpp 266-282: the `tombstone` of `variant<Ts...>` with `n` alternatives, where
alternative `i` has the values `P i`. -/
def variantTomb (W n : Nat) (P : Nat → Type) : Tomb (VarRep P) { s : Sigma P // s.1 < n } :=
  memberTomb (variantIndexTomb W n) (fun i => ⟨i, none⟩) VarRep.index
    (fun s => ⟨⟨indexRng n, s.1.1⟩, some s.1⟩)

theorem indexRng_ok {W n : Nat} (hW : 64 < W) (hn : n ≠ 0) (hc : n ≤ 2 ^ 64) :
    (indexRng n).Wf W ∧ ((indexRng n).under W).bits < W := by
  have h : indexRng n = ⟨0, ((n - 1 : Nat) : Int)⟩ := by
    simp only [indexRng, Rng.mk.injEq, true_and]
    omega
  rw [h]
  exact natRng_ok hW (by omega)

theorem variantIndexTomb_lawful {W n : Nat} (hW : 64 ≤ W) (hwf : (indexRng n).Wf W)
    (hb : ((indexRng n).under W).bits < W) : (variantIndexTomb W n).Lawful := by
  have hl := anyIntTomb_lawful hW hwf fun _ => C19_compiles hW hwf hb
  exact C93_member_lawful hl (fun _ => rfl) (fun b => ⟨b, rfl⟩) hl.enc_inj

/-- C93: `variant<Ts...>` has a lawful `tombstone` for every list of alternatives. -/
theorem C93_variant_lawful {W n : Nat} {P : Nat → Type} (hW : 64 < W) (hn : n ≠ 0) (hc : n ≤ 2 ^ 64) :
    (variantTomb W n P).Lawful := by
  obtain ⟨hwf, hb⟩ := indexRng_ok hW hn hc
  replace hW : 64 ≤ W := by omega
  refine C93_member_lawful (variantIndexTomb_lawful hW hwf hb) (fun _ => rfl) ?_ ?_
  · intro s
    refine ⟨⟨(s.1.1 : Int), ?_⟩, ?_⟩
    · have := s.2
      simp only [indexRng]
      omega
    · show _ = (anyIntTomb W (indexRng n)).enc _
      rw [anyIntTomb_enc]
  · intro s t e
    simp only [VarRep.mk.injEq, Option.some.injEq] at e
    exact Subtype.ext e.2

/-- C93: a variant with one alternative offers nothing, one with more offers every
representation of its index beyond the alternatives. -/
theorem C93_variant_spare {W n : Nat} {P : Nat → Type} (hW : 64 < W) (hn : n ≠ 0) (hc : n ≤ 2 ^ 64) :
    ((variantTomb W n P).spare : Int) =
      if n = 1 then 0
      else ((indexRng n).under W).hi - ((indexRng n).under W).lo + 1 - n := by
  obtain ⟨hwf, hb⟩ := indexRng_ok hW hn hc
  replace hW : 64 ≤ W := by omega
  show ((anyIntTomb W (indexRng n)).spare : Int) = _
  split
  · subst n
    rfl
  · rw [anyIntTomb_spare hW hwf (by simp only [indexRng]; omega) (C19_compiles hW hwf hb).2.2]
    simp only [indexRng]
    omega

/-! ## What this means for optionals -/

/-- What a user of nested optionals over a base type sees: every value is stored and read
back, different values stay different, and up to the number of spare representations
nesting needs no further storage. -/
structure NestsWell (W : Nat) (t : Tomb R A) : Prop where
  empty : ∀ n, ∃ r, encode W (optN (n + 1) (.base t)) (none : Option _) = .ok r ∧
    isInit W (optN n (.base t)) r = .ok false
  full : ∀ n (x : Sem (optN n (.base t))), ∃ r v,
    encode W (optN (n + 1) (.base t)) (some x : Option _) = .ok r ∧
    isInit W (optN n (.base t)) r = .ok true ∧
    encode W (optN n (.base t)) x = .ok v ∧ getOf W (optN n (.base t)) r = .ok v
  distinct : ∀ n (x y : Sem (optN n (.base t))),
    encode W (optN n (.base t)) x = encode W (optN n (.base t)) y → x = y
  noOverhead : ∀ n, n ≤ t.spare → ∀ x : Sem (optN n (.base t)),
    ∃ r, encode W (optN n (.base t)) x = .ok (.base r)

theorem optN_lawful {t : Tomb R A} (ht : t.Lawful) : ∀ n, (optN n (.base t)).Lawful
  | 0 => ht
  | n + 1 => optN_lawful ht n

theorem nestsWell {W : Nat} (hW : 64 ≤ W) {t : Tomb R A} (ht : t.Lawful) : NestsWell W t where
  empty n := (C20_observers hW (optN n (.base t)) (optN_lawful ht n)).1
  full n := (C20_observers hW (optN n (.base t)) (optN_lawful ht n)).2
  distinct n := C20_levels_distinct hW _ (optN_lawful ht n)
  noOverhead n hn x := C20_no_overhead hW n t ht hn x

/-- C93: an optional of a `static_vector`, nested to any depth, never confuses "nothing"
with any vector, not even with the empty or the full one. -/
theorem C93_optional_static_vector {W cap : Nat} (hW : 64 < W) (hc : cap < 2 ^ 64) :
    NestsWell W (vecTomb W cap V) :=
  nestsWell (by omega) (C93_static_vector_lawful hW hc)

/-- C93: the same for an optional of a variant. -/
theorem C93_optional_variant {W n : Nat} {P : Nat → Type} (hW : 64 < W) (hn : n ≠ 0) (hc : n ≤ 2 ^ 64) :
    NestsWell W (variantTomb W n P) :=
  nestsWell (by omega) (C93_variant_lawful hW hn hc)

/-- The elements of a `static_vector` may themselves be such types: here a
`static_vector<variant<...>, 3>` with three alternatives, two levels of optional. The
empty outer optional and the empty inner one differ from each other and from `{}`. -/
example : let t := vecTomb 128 3 { s : Sigma fun _ => Nat // s.1 < 3 }
    NestsWell 128 t ∧ t.spare = 252 := by
  refine ⟨C93_optional_static_vector (by omega) (by decide), ?_⟩
  have := C93_static_vector_spare (V := { s : Sigma fun _ => Nat // s.1 < 3 }) (W := 128) (cap := 3) (by omega)
    (by decide)
  have hu : (sizeRng 3).under 128 = ⟨true, 8⟩ := by decide +kernel
  rw [if_neg (by omega), hu] at this
  simp [CTy.hi, CTy.lo] at this
  omega

/-- A variant of three alternatives: 253 levels of optional without any storage. -/
example : NestsWell 128 (variantTomb 128 3 fun _ => Nat) ∧ (variantTomb 128 3 fun _ => Nat).spare = 253 := by
  refine ⟨C93_optional_variant (by omega) (by decide) (by decide), ?_⟩
  have := C93_variant_spare (P := fun _ => Nat) (W := 128) (n := 3) (by omega) (by decide) (by decide)
  have hu : (indexRng 3).under 128 = ⟨true, 8⟩ := by decide +kernel
  rw [if_neg (by omega), hu] at this
  simp [CTy.hi, CTy.lo] at this
  omega

/-- With capacity zero the size is a constant, so an optional is a variant with an index. -/
example : (vecTomb 128 0 Nat).spare = 0 ∧ NestsWell 128 (vecTomb 128 0 Nat) :=
  ⟨rfl, C93_optional_static_vector (by omega) (by decide)⟩

end Verif.Tv
