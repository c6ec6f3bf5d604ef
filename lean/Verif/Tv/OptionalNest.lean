import Verif.Bounded.Tombstone

/-!
# Nested optionals (property C20)

`tv::optional<T>` stores "nothing" in a spare representation of `T` when `T` has one, and
passes the remaining spare representations on to the next level; otherwise it is a
`variant<none_t, T>` whose index, an `integer<0, 1>`, offers its own spare
representations. The model computes with the representations at every nesting depth.
-/

namespace Verif.Tv

open Verif Bounded

variable {R A : Type}

/-- What `bounded::tombstone_traits<T>` (source/bounded/tombstone.cpp 47-55, 103-122)
offers for a type `T` with object representations `R` and values `A`: the number of spare
representations, `make`, `index` (`none` for `-1_bi`), and the representation of a value. -/
structure Tomb (R A : Type) where
  spare : Nat
  make : Nat → R
  index : R → Option Nat
  enc : A → R

/-- The documented contract of `tombstone_traits` (tombstone.cpp 49-51, 117). -/
structure Tomb.Lawful (t : Tomb R A) : Prop where
  index_make : ∀ i, i < t.spare → t.index (t.make i) = some i
  index_enc : ∀ a, t.index (t.enc a) = none
  enc_inj : ∀ a b, t.enc a = t.enc b → a = b

/-- Types: a base type or an optional of a type. -/
inductive OTy (R A : Type) where
  | base (t : Tomb R A)
  | opt (c : OTy R A)

/-- Object representations: that of the base type, or the variant index with or without
an active member that carries data (`none_t` is empty). -/
inductive ORep (R : Type) where
  | base (r : R)
  | tag (idx : BInt)
  | tagWith (idx : BInt) (member : ORep R)
  deriving Repr, DecidableEq

/-- source/tv/variant_index.cpp 19-34: the type of the index of a variant with two
alternatives. -/
def idxRng : Rng := ⟨0, 1⟩

/-- The run-time value of an expression of bounded integer type. -/
def valueOf (e : Option (Res BInt)) : Res Int :=
  match e with
  | some (.ok b) => b.value
  | _ => .ub

/-- `-1` means "an object is present" (tombstone.cpp 117). -/
def toIndex (v : Int) : Option Nat := if v < 0 then none else some v.toNat

/-- Spare representations of the index type. -/
def idxSpare (W : Nat) : Nat :=
  match valueOf (spareRepresentations W idxRng) with
  | .ok v => v.toNat
  | _ => 0

/-- source/bounded/tombstone.cpp 103-122 `tombstone_traits::spare_representations` for
`tv::optional` (optional.cpp 66, 198-201, 389-391): a nullable type gives away one of its
tombstones; the index type of the variant keeps all of its own. -/
def spareOf (W : Nat) : OTy R A → Nat
  | .base t => t.spare
  | .opt c => if spareOf W c ≠ 0 then spareOf W c - 1 else idxSpare W

/-- `tombstone_traits::make`. Nullable: optional.cpp 194-197. Variant: optional.cpp 67-70
and variant.cpp 269-273, through `tombstone_member` (tombstone.cpp 129-136). -/
def makeOf (W : Nat) : OTy R A → Nat → Res (ORep R)
  | .base t, i => .ok (.base (t.make i))
  | .opt c, i =>
    if spareOf W c ≠ 0 then makeOf W c (i + 1)
    else match tombMake W idxRng i with
      | some (.ok b) => .ok (.tag b)
      | _ => .ub

/-- `tombstone_traits::index`. Nullable: optional.cpp 202-209. Variant: optional.cpp
71-73, through `tombstone_member` (tombstone.cpp 137-139). An object that does not have
the shape of its type cannot occur and is `ub`. -/
def indexOf (W : Nat) : OTy R A → ORep R → Res (Option Nat)
  | .base t, .base r => .ok (t.index r)
  | .base _, _ => .ub
  | .opt c, r =>
    if spareOf W c ≠ 0 then do
      let i ← indexOf W c r
      return match i with
        | none => none
        | some k => toIndex ((k : Int) - 1)
    else
      match r with
      | .base _ => .ub
      | .tag b => do let v ← valueOf (tombIndex W b); return toIndex v
      | .tagWith b _ => do let v ← valueOf (tombIndex W b); return toIndex v

/-- An `optional<c>` without a value: optional.cpp 29-32, 86-89, 213-215. -/
def noneOf (W : Nat) (c : OTy R A) : Res (ORep R) :=
  if spareOf W c ≠ 0 then makeOf W c 0 else .ok (.tag ⟨idxRng, 0⟩)

/-- An `optional<c>` with the value `r`: optional.cpp 39-42, 96-99. -/
def someOf (W : Nat) (c : OTy R A) (r : ORep R) : ORep R :=
  if spareOf W c ≠ 0 then r else .tagWith ⟨idxRng, 1⟩ r

/-- `optional<c>::operator bool` (optional.cpp 337-339, 44-46, 167-169). The index of a
variant is read as a bounded integer. -/
def isInit (W : Nat) (c : OTy R A) (r : ORep R) : Res Bool :=
  if spareOf W c ≠ 0 then do
    let i ← indexOf W c r
    return decide (i ≠ some 0)
  else
    match r with
    | .base _ => .ub
    | .tag b => do let v ← b.value; return decide (v = 1)
    | .tagWith b _ => do let v ← b.value; return decide (v = 1)

/-- `optional<c>::operator*` (optional.cpp 322-333, 56-64, 183-191). Reading the member
that is not active is undefined. -/
def getOf (W : Nat) (c : OTy R A) (r : ORep R) : Res (ORep R) := do
  let i ← isInit W c r
  if i = false then .ub
  else if spareOf W c ≠ 0 then return r
  else
    match r with
    | .tagWith _ m => return m
    | _ => .ub

/-! ## Specification: nested `Option` values -/

/-- The values of a type. -/
def Sem : OTy R A → Type
  | .base _ => A
  | .opt c => Option (Sem c)

/-- How a value is represented, built with the constructors of `tv::optional`. -/
def encode (W : Nat) : (c : OTy R A) → Sem c → Res (ORep R)
  | .base t, a => .ok (.base (t.enc a))
  | .opt c, none => noneOf W c
  | .opt c, some x => do
    let r ← encode W c x
    return someOf W c r

/-- The base type fulfils the contract. -/
def OTy.Lawful : OTy R A → Prop
  | .base t => t.Lawful
  | .opt c => c.Lawful

/-- `n` times `tv::optional`. -/
def optN (n : Nat) (c : OTy R A) : OTy R A :=
  match n with
  | 0 => c
  | n + 1 => .opt (optN n c)

section
variable {W : Nat}

theorem valueOf_yields {e : Option (Res BInt)} {rr : Rng} {v : Int} (h : Yields e rr v) : valueOf e = .ok v := by
  obtain ⟨b, h1, _, h3, _⟩ := h
  rw [h1]
  exact h3

theorem idx_wf (hW : 64 ≤ W) : idxRng.Wf W := by
  have := pow_facts hW
  rw [wf_iff hW]
  unfold idxRng Storable
  simp only
  omega

theorem idx_under (hW : 64 ≤ W) : idxRng.under W = ⟨true, 8⟩ := by
  have := pow_facts hW
  unfold Rng.under
  rw [determineType_first hW (by unfold idxRng Rep; simp only; omega) (by unfold idxRng Rep; simp only; omega)]
  have : candidates W = ⟨true, 8⟩ :: (candidates W).tail := rfl
  rw [this, List.find?_cons_of_pos (by decide)]
  rfl

theorem idx_compiles (hW : 64 ≤ W) : MakeCompiles W idxRng ∧ IndexCompiles W idxRng ∧
    spareRepresentations W idxRng ≠ none :=
  C19_compiles hW (idx_wf hW) (by rw [idx_under hW]; simp only; omega)

/-- The index of a two-alternative variant has 254 spare representations. -/
theorem idxSpare_eq (hW : 64 ≤ W) : idxSpare W = 254 := by
  obtain ⟨rr, h⟩ := C19_spare_count hW (idx_wf hW) (idx_compiles hW).2.2
  unfold idxSpare
  rw [valueOf_yields h, idx_under hW]
  rfl

theorem idx_make (hW : 64 ≤ W) {i : Nat} (hi : i < 254) :
    ∃ b, tombMake W idxRng i = some (.ok b) ∧ valueOf (tombIndex W b) = .ok (i : Int) := by
  obtain ⟨t, t1, t2, t3, t4, rr, t5⟩ := C19_make_index hW (idx_wf hW) (idx_compiles hW).1 (idx_compiles hW).2.1
    (i := i) (by omega) (by rw [idx_under hW]; unfold idxRng CTy.lo CTy.hi; simp; omega)
  exact ⟨t, t1, valueOf_yields t5⟩

theorem idx_live (hW : 64 ≤ W) {v : Int} (hv : v = 0 ∨ v = 1) :
    valueOf (tombIndex W ⟨idxRng, v⟩) = .ok (-1) := by
  have hh : Holds W ⟨idxRng, v⟩ v := by
    refine ⟨idx_wf hW, ?_⟩
    unfold BInt.value idxRng Rng.Mem
    rcases hv with rfl | rfl <;> simp
  obtain ⟨rr, h⟩ := C19_live_index hW hh (by unfold idxRng; simp) (idx_compiles hW).2.1
  exact valueOf_yields h

@[simp] theorem res_bind_ok {α β : Type} (a : α) (f : α → Res β) : ((Res.ok a : Res α) >>= f) = f a := rfl
@[simp] theorem res_pure {α : Type} (a : α) : (pure a : Res α) = .ok a := rfl

/-- The contract of tombstones holds at every level. -/
theorem makeOf_spec (hW : 64 ≤ W) : ∀ (c : OTy R A), c.Lawful → ∀ i, i < spareOf W c →
    ∃ r, makeOf W c i = .ok r ∧ indexOf W c r = .ok (some i) := by
  intro c
  induction c with
  | base t => intro h i hi; exact ⟨_, rfl, by simp [indexOf, h.index_make i hi]⟩
  | opt c ih =>
    intro h i hi
    unfold spareOf at hi
    unfold makeOf indexOf
    by_cases hs : spareOf W c ≠ 0
    · simp only [hs, ne_eq, not_false_eq_true, if_true] at hi ⊢
      obtain ⟨r, r1, r2⟩ := ih h (i + 1) (by omega)
      refine ⟨r, r1, ?_⟩
      rw [r2]
      simp [toIndex]
    · simp only [hs, if_false] at hi ⊢
      rw [idxSpare_eq hW] at hi
      obtain ⟨b, b1, b2⟩ := idx_make hW hi
      rw [b1]
      refine ⟨_, rfl, ?_⟩
      simp [b2, toIndex]

theorem encode_spec (hW : 64 ≤ W) : ∀ (c : OTy R A), c.Lawful → ∀ x : Sem c,
    ∃ r, encode W c x = .ok r ∧ indexOf W c r = .ok none := by
  intro c
  induction c with
  | base t => intro h x; exact ⟨_, rfl, by simp only [indexOf]; rw [show t.index (t.enc x) = none from h.index_enc x]⟩
  | opt c ih =>
    intro h x
    by_cases hs : spareOf W c ≠ 0
    · cases x with
      | none =>
        obtain ⟨r, r1, r2⟩ := makeOf_spec hW c h 0 (by omega)
        refine ⟨r, by simp [encode, noneOf, hs, r1], ?_⟩
        unfold indexOf
        simp [hs, r2, toIndex]
      | some x =>
        obtain ⟨r, r1, r2⟩ := ih h x
        refine ⟨r, by simp [encode, someOf, hs, r1], ?_⟩
        unfold indexOf
        simp [hs, r2]
    · cases x with
      | none =>
        refine ⟨.tag ⟨idxRng, 0⟩, by simp only [encode, noneOf, hs, if_false], ?_⟩
        unfold indexOf
        simp only [hs, if_false]
        rw [idx_live hW (Or.inl rfl)]
        rfl
      | some x =>
        obtain ⟨r, r1, r2⟩ := ih h x
        refine ⟨.tagWith ⟨idxRng, 1⟩ r, by simp only [encode, someOf, hs, if_false, r1]; rfl, ?_⟩
        unfold indexOf
        simp only [hs, if_false]
        rw [idx_live hW (Or.inr rfl)]
        rfl

/-! ## Property theorems -/

/-- C20: at every nesting depth, testing and dereferencing a nested optional gives back
exactly what was stored: an empty optional is empty, and an optional that holds a value
(which may itself be an empty optional) is not empty and dereferences to that value. -/
theorem C20_observers (hW : 64 ≤ W) (c : OTy R A) (h : c.Lawful) :
    (∃ r, encode W (.opt c) none = .ok r ∧ isInit W c r = .ok false) ∧
    ∀ x : Sem c, ∃ r v, encode W (.opt c) (some x) = .ok r ∧ isInit W c r = .ok true ∧
      encode W c x = .ok v ∧ getOf W c r = .ok v := by
  by_cases hs : spareOf W c ≠ 0
  · refine ⟨?_, fun x => ?_⟩
    · obtain ⟨r, r1, r2⟩ := makeOf_spec hW c h 0 (by omega)
      exact ⟨r, by simp [encode, noneOf, hs, r1], by simp [isInit, hs, r2]⟩
    · obtain ⟨r, r1, r2⟩ := encode_spec hW c h x
      have hi : isInit W c r = .ok true := by simp [isInit, hs, r2]
      exact ⟨r, r, by simp [encode, someOf, hs, r1], hi, r1, by simp [getOf, hi, hs]⟩
  · refine ⟨⟨.tag ⟨idxRng, 0⟩, by simp only [encode, noneOf, hs, if_false], ?_⟩, fun x => ?_⟩
    · simp only [isInit, hs, if_false]; rfl
    · obtain ⟨r, r1, r2⟩ := encode_spec hW c h x
      have hi : isInit W c (.tagWith ⟨idxRng, 1⟩ r) = .ok true := by
        simp only [isInit, hs, if_false]; rfl
      refine ⟨.tagWith ⟨idxRng, 1⟩ r, r, by simp only [encode, someOf, hs, if_false, r1]; rfl, hi, r1, ?_⟩
      unfold getOf
      rw [hi]
      simp only [hs, if_false]
      rfl

/-- C20: different values of a nested optional type have different representations; in
particular "empty at level k" and "empty at level l" are never confused. -/
theorem C20_levels_distinct (hW : 64 ≤ W) : ∀ (c : OTy R A), c.Lawful → ∀ x y : Sem c,
    encode W c x = encode W c y → x = y := by
  intro c
  induction c with
  | base t =>
    intro h x y e
    simp only [encode, Res.ok.injEq, ORep.base.injEq] at e
    exact h.enc_inj _ _ e
  | opt c ih =>
    intro h x y e
    obtain ⟨⟨rn, n1, n2⟩, hsome⟩ := C20_observers hW c h
    cases x with
    | none =>
      cases y with
      | none => rfl
      | some y =>
        obtain ⟨r, v, r1, r2, _⟩ := hsome y
        rw [n1, r1] at e
        simp only [Res.ok.injEq] at e
        subst e
        rw [n2] at r2; simp at r2
    | some x =>
      obtain ⟨r, v, r1, r2, r3, r4⟩ := hsome x
      cases y with
      | none =>
        rw [r1, n1] at e
        simp only [Res.ok.injEq] at e
        subst e
        rw [r2] at n2; simp at n2
      | some y =>
        obtain ⟨r', v', s1, s2, s3, s4⟩ := hsome y
        rw [r1, s1] at e
        simp only [Res.ok.injEq] at e
        subst e
        rw [r4] at s4
        simp only [Res.ok.injEq] at s4
        subst s4
        rw [ih h x y (by rw [r3, s3])]

/-- C20: the spare representations that a nested optional offers to the next level are
never the representation of a value, and are pairwise different. -/
theorem C20_tombstones_free (hW : 64 ≤ W) (c : OTy R A) (h : c.Lawful) {i : Nat} (hi : i < spareOf W c) :
    ∃ r, makeOf W c i = .ok r ∧ indexOf W c r = .ok (some i) ∧
      (∀ x : Sem c, encode W c x ≠ .ok r) ∧ (∀ j, j < spareOf W c → j ≠ i → makeOf W c j ≠ .ok r) := by
  obtain ⟨r, r1, r2⟩ := makeOf_spec hW c h i hi
  refine ⟨r, r1, r2, fun x e => ?_, fun j hj hne e => ?_⟩
  · obtain ⟨r', s1, s2⟩ := encode_spec hW c h x
    rw [e] at s1; simp only [Res.ok.injEq] at s1; subst s1
    rw [r2] at s2; simp at s2
  · obtain ⟨r', s1, s2⟩ := makeOf_spec hW c h j hj
    rw [e] at s1; simp only [Res.ok.injEq] at s1; subst s1
    rw [r2] at s2; simp at s2; omega

/-- C20: every level of nesting uses one spare representation. -/
theorem C20_spare_count (n : Nat) (t : Tomb R A) (h : n ≤ t.spare) :
    spareOf W (optN n (.base t)) = t.spare - n := by
  induction n with
  | zero => rfl
  | succ n ih =>
    simp only [optN, spareOf, ih (by omega)]
    rw [if_pos (by omega)]; omega

/-- C20: as long as the base type has spare representations, nesting does not add a
single bit: the object representation is one of the base type. -/
theorem C20_no_overhead (hW : 64 ≤ W) (n : Nat) (t : Tomb R A) (ht : t.Lawful) (h : n ≤ t.spare)
    (x : Sem (optN n (.base t))) : ∃ r, encode W (optN n (.base t)) x = .ok (.base r) := by
  have mk : ∀ n, n ≤ t.spare → ∀ i, ∃ r, makeOf W (optN n (.base t)) i = .ok (.base r) := by
    intro n
    induction n with
    | zero => intro _ i; exact ⟨_, rfl⟩
    | succ n ih =>
      intro hn i
      have hs := C20_spare_count (W := W) n t (by omega)
      simp only [optN, makeOf]
      rw [if_pos (by omega)]
      exact ih (by omega) (i + 1)
  induction n with
  | zero => exact ⟨_, rfl⟩
  | succ n ih =>
    have hs := C20_spare_count (W := W) n t (by omega)
    cases x with
    | none =>
      obtain ⟨r, hr⟩ := mk n (by omega) 0
      refine ⟨r, ?_⟩
      simp only [optN, encode, noneOf]
      rw [if_pos (by omega)]
      exact hr
    | some x =>
      obtain ⟨r, hr⟩ := ih (by omega) x
      refine ⟨r, ?_⟩
      simp only [optN, encode, hr]
      show Res.ok (someOf W _ _) = _
      unfold someOf
      rw [if_pos (by omega)]

/-- C20: after the spare representations are used up, one index byte serves 255 further
levels: that optional has 254 spare representations. -/
theorem C20_spare_after_tag (hW : 64 ≤ W) (c : OTy R A) (h : spareOf W c = 0) : spareOf W (.opt c) = 254 := by
  unfold spareOf
  rw [if_neg (by omega), idxSpare_eq hW]

/-! ## Bounded integers fulfil the contract -/

/-- source/bounded/tombstone.cpp 57-86: the tombstones of `integer<r.lo, r.hi>`. -/
def intTomb (W : Nat) (r : Rng) : Tomb BInt { x : Int // r.Mem x } where
  spare := match valueOf (spareRepresentations W r) with | .ok v => v.toNat | _ => 0
  make i := match tombMake W r i with | some (.ok b) => b | _ => ⟨r, 0⟩
  index b := match valueOf (tombIndex W b) with | .ok v => toIndex v | _ => none
  enc x := ⟨r, x.1⟩

theorem C20_integers_lawful (hW : 64 ≤ W) {r : Rng} (hwf : r.Wf W) (hnc : r.lo ≠ r.hi)
    (hmc : MakeCompiles W r) (hic : IndexCompiles W r) (hsc : spareRepresentations W r ≠ none) :
    (intTomb W r).Lawful := by
  obtain ⟨rr, hs⟩ := C19_spare_count hW hwf hsc
  refine ⟨fun i hi => ?_, fun a => ?_, fun a b e => ?_⟩
  · simp only [intTomb, valueOf_yields hs] at hi ⊢
    obtain ⟨t, t1, _, _, _, rr', t5⟩ := C19_make_index hW hwf hmc hic (i := i) (by omega) (by omega)
    rw [t1]
    simp only
    rw [valueOf_yields t5]
    simp [toIndex]
  · have hh : Holds W ⟨r, a.1⟩ a.1 := by
      refine ⟨hwf, ?_⟩
      unfold BInt.value
      simp only
      rw [if_neg hnc, if_pos a.2]
    obtain ⟨rr', h⟩ := C19_live_index hW hh hnc hic
    simp only [intTomb]
    rw [valueOf_yields h]
    rfl
  · simp only [intTomb, BInt.mk.injEq, true_and] at e
    exact Subtype.ext e

/-- Three levels over `integer<1, 10>`: the hypotheses hold and the three kinds of
"nothing" are three different bytes. -/
example : let t := intTomb 128 ⟨1, 10⟩
    t.Lawful ∧ 3 ≤ t.spare ∧
    encode 128 (optN 3 (.base t)) (none : Option (Option (Option _))) = .ok (.base ⟨⟨1, 10⟩, -126⟩) ∧
    encode 128 (optN 3 (.base t)) (some none : Option (Option (Option _))) = .ok (.base ⟨⟨1, 10⟩, -127⟩) ∧
    encode 128 (optN 3 (.base t)) (some (some none) : Option (Option (Option _))) = .ok (.base ⟨⟨1, 10⟩, -128⟩) := by
  have hc := C19_compiles (W := 128) (by omega) (r := ⟨1, 10⟩) (by decide +kernel) (by decide +kernel)
  exact ⟨C20_integers_lawful (by omega) (by decide +kernel) (by decide) hc.1 hc.2.1 hc.2.2, by decide +kernel,
    by decide +kernel, by decide +kernel, by decide +kernel⟩

end
end Verif.Tv
