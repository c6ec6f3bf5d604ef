import Verif.Bounded.ToInteger

/-!
# `tombstone<integer<lo, hi>>` (property C19)
-/

namespace Verif.Bounded

open Verif

/-- source/bounded/tombstone.cpp 63 `spare_below`. -/
def spareBelow (W : Nat) (r : Rng) : Option (Res BInt) := minus W (constB r.lo) (constB (r.under W).lo)

/-- source/bounded/tombstone.cpp 64 `spare_above`. -/
def spareAbove (W : Nat) (r : Rng) : Option (Res BInt) := minus W (constB (r.under W).hi) (constB r.hi)

/-- source/bounded/tombstone.cpp 65-68: the upper bound of `index_t`. -/
def maxTombstone (W : Nat) (r : Rng) : Option (Res BInt) :=
  thenB (spareBelow W r) fun b =>
    thenB (spareAbove W r) fun a =>
      thenB (plus W b a) fun s => minus W s (constB 1)

/-- source/bounded/tombstone.cpp 109 `tombstone_traits::spare_representations`. -/
def spareRepresentations (W : Nat) (r : Rng) : Option (Res BInt) :=
  thenB (maxTombstone W r) fun m => plus W (constB m.rng.hi) (constB 1)

/-- source/bounded/tombstone.cpp 70-76 `make(constant<i>)`. Both arguments of
`conditional_function` are evaluated. The result is written with the `unchecked`
constructor, so it can hold a value outside `[lo, hi]`. -/
def tombMake (W : Nat) (r : Rng) (i : Int) : Option (Res BInt) :=
  thenB (spareBelow W r) fun below =>
    thenB (plus W (constB i) (constB (r.under W).lo)) fun v1 =>
      thenB (minus W (constB i) below) fun t1 =>
        thenB (plus W t1 (constB r.hi)) fun t2 =>
          thenB (plus W t2 (constB 1)) fun v2 => some (do
            let lt ← compareB W (constB i) below
            let v ← (if lt = .lt then v1 else v2).value
            return r.unchecked W v)

/-- `BOUNDED_CONDITIONAL(c, x, y)` (include/bounded/conditional.hpp 11-14). The branch not
taken is evaluated too; that has no effect. -/
def conditionalB (W : Nat) (c : Bool) (x y : BInt) : Option (Res BInt) := do
  let r ← commonType W x.rng y.rng
  convert W r (if c then x else y)

/-- source/bounded/tombstone.cpp 77-85 `index(value)`. -/
def tombIndex (W : Nat) (b : BInt) : Option (Res BInt) :=
  let u := b.rng.under W
  let bv : BInt := (Rng.mk u.lo u.hi).unchecked W b.rep
  thenB (spareBelow W b.rng) fun below =>
    thenB (minus W bv (constB u.lo)) fun v1 =>
      thenB (plus W bv below) fun t1 =>
        thenB (minus W t1 (constB b.rng.hi)) fun t2 =>
          thenB (minus W t2 (constB 1)) fun v2 =>
            match compareB W bv (constB b.rng.lo), compareB W bv (constB b.rng.hi) with
            | .ok o1, .ok o2 =>
              thenB (conditionalB W (o2 = .gt) v2 (constB (-1))) fun inner =>
                thenB (conditionalB W (o1 = .lt) v1 inner) fun result =>
                  thenB (maxTombstone W b.rng) fun m => do
                    let it ← mkInteger W (-1) m.rng.hi
                    match ← assumeInRange W result it.lo it.hi with
                    | .ok c => if c.rng = it then some (.ok c) else convert W it c
                    | .ub => some .ub
                    | .exn => some .exn
            | _, _ => some .ub

section
variable {W : Nat}

theorem minus_of (hW : 64 ≤ W) {a b : BInt} {x y : Int} (ha : Holds W a x) (hb : Holds W b y)
    (h1 : Storable W (-b.rng.hi) (-b.rng.lo))
    (h2 : Storable W (a.rng.lo - b.rng.hi) (a.rng.hi - b.rng.lo)) :
    ∃ c, minus W a b = some (.ok c) ∧ c.rng = ⟨a.rng.lo - b.rng.hi, a.rng.hi - b.rng.lo⟩ ∧ Holds W c (x - y) := by
  obtain ⟨n, n1, n2, n3⟩ := neg_of hW hb h1
  obtain ⟨s, s1, s2, s3⟩ := plus_of hW ha n3 (by
    rw [n2]; simp only
    rw [show a.rng.lo + -b.rng.hi = a.rng.lo - b.rng.hi by omega, show a.rng.hi + -b.rng.lo = a.rng.hi - b.rng.lo by omega]
    exact h2)
  have hn : minus W a b ≠ none := by
    unfold minus
    rw [n1]
    simp only [Option.bind_eq_bind, Option.bind_some]
    cases hnt : negTy W b.rng with
    | none => unfold neg at n1; rw [hnt] at n1; simp at n1
    | some nt =>
      have hnt' : nt = n.rng := by
        obtain ⟨c, h1, h2, _⟩ := neg_value hW hb.1 hnt hb.2
        rw [n1] at h1
        simp only [Option.some.injEq, Res.ok.injEq] at h1
        rw [h1, h2]
      subst hnt'
      simp only [Option.bind_some]
      cases hp : plusTy W a.rng n.rng with
      | none => unfold plus at s1; rw [hp] at s1; simp at s1
      | some q => simp
  obtain ⟨c, c1, c2⟩ := minus_holds hW ha hb hn
  obtain ⟨d, d1, d2, _⟩ := C03_sub_exact hW ha hb hn
  rw [c1] at d1
  simp only [Option.some.injEq, Res.ok.injEq] at d1
  subst d1
  exact ⟨c, c1, d2, c2⟩

theorem conditionalB_spec (hW : 64 ≤ W) {a b : BInt} {x y : Int} (ha : Holds W a x) (hb : Holds W b y)
    (h : Storable W (min a.rng.lo b.rng.lo) (max a.rng.hi b.rng.hi)) (c : Bool) :
    ∃ d, conditionalB W c a b = some (.ok d) ∧
      d.rng = ⟨min a.rng.lo b.rng.lo, max a.rng.hi b.rng.hi⟩ ∧ Holds W d (if c then x else y) := by
  have ra := ha.1.rep hW
  have rb := hb.1.rep hW
  have wa := ((wf_iff hW _).mp ha.1).1
  have hmk : mkInteger W (min a.rng.lo b.rng.lo) (max a.rng.hi b.rng.hi) =
      some ⟨min a.rng.lo b.rng.lo, max a.rng.hi b.rng.hi⟩ := by
    rw [mkInteger_eq hW, if_pos ⟨by omega, h⟩]
  have hwf := wf_of_mk hW hmk
  unfold conditionalB commonType
  rw [safeMin_eq hW ra.1 rb.1, safeMax_eq hW ra.2 rb.2, hmk]
  simp only [Option.bind_eq_bind, Option.bind_some]
  cases c
  · exact convert_holds hW hwf hb (by simp only [Bool.false_eq_true, if_false]; omega)
  · exact convert_holds hW hwf ha (by simp only [if_true]; omega)

/-- Numbers occurring for a type whose underlying type is narrower than the widest. -/
theorem under_small (hW : 64 ≤ W) {r : Rng} (hwf : r.Wf W) (hb : (r.under W).bits < W) :
    -(2 ^ (W - 1)) < (r.under W).lo ∧ (r.under W).lo ≤ r.lo ∧ r.lo ≤ r.hi ∧ r.hi ≤ (r.under W).hi ∧
      (r.under W).hi - (r.under W).lo < 2 ^ (W - 1) ∧ (r.under W).lo ≤ 0 ∧ 0 ≤ (r.under W).hi ∧
      (r.under W).hi < 2 ^ (W - 1) := by
  have ⟨p1, p2⟩ := pow_facts hW
  have w := ((wf_iff hW _).mp hwf).1
  obtain ⟨ht, hf⟩ := under_spec hW hwf
  have f1 := hf r.lo ⟨by omega, w⟩
  have f2 := hf r.hi ⟨w, by omega⟩
  have e1 := CTy.two_pow_le (m := (r.under W).bits) (n := W - 1) (by omega)
  have e2 := CTy.two_pow_pred ht.1
  have e3 := CTy.two_pow_pos ((r.under W).bits - 1)
  generalize r.under W = u at *
  obtain ⟨s, n⟩ := u
  unfold CTy.Fits CTy.lo CTy.hi at *
  simp only at *
  cases s <;> simp at * <;> omega

theorem spareBelow_spec (hW : 64 ≤ W) {r : Rng} (hwf : r.Wf W) (hb : (r.under W).bits < W) :
    ∃ c, spareBelow W r = some (.ok c) ∧ c.rng = ⟨r.lo - (r.under W).lo, r.lo - (r.under W).lo⟩ ∧
      Holds W c (r.lo - (r.under W).lo) := by
  have ⟨p1, p2⟩ := pow_facts hW
  have u := under_small hW hwf hb
  exact minus_of hW (constB_holds hW (by unfold Rep; omega)) (constB_holds hW (by unfold Rep; omega))
    (by unfold Storable constB; simp only; omega) (by unfold Storable constB; simp only; omega)

theorem spareAbove_spec (hW : 64 ≤ W) {r : Rng} (hwf : r.Wf W) (hb : (r.under W).bits < W) :
    ∃ c, spareAbove W r = some (.ok c) ∧ c.rng = ⟨(r.under W).hi - r.hi, (r.under W).hi - r.hi⟩ ∧
      Holds W c ((r.under W).hi - r.hi) := by
  have ⟨p1, p2⟩ := pow_facts hW
  have u := under_small hW hwf hb
  exact minus_of hW (constB_holds hW (by unfold Rep; omega)) (constB_holds hW (by unfold Rep; omega))
    (by unfold Storable constB; simp only; omega) (by unfold Storable constB; simp only; omega)

/-- The number of spare representations. -/
def spares (W : Nat) (r : Rng) : Int := (r.lo - (r.under W).lo) + ((r.under W).hi - r.hi)

theorem maxTombstone_spec (hW : 64 ≤ W) {r : Rng} (hwf : r.Wf W) (hb : (r.under W).bits < W) :
    ∃ c, maxTombstone W r = some (.ok c) ∧ c.rng = ⟨spares W r - 1, spares W r - 1⟩ ∧
      Holds W c (spares W r - 1) := by
  have ⟨p1, p2⟩ := pow_facts hW
  have u := under_small hW hwf hb
  obtain ⟨b, b1, b2, b3⟩ := spareBelow_spec hW hwf hb
  obtain ⟨a, a1, a2, a3⟩ := spareAbove_spec hW hwf hb
  obtain ⟨s, s1, s2, s3⟩ := plus_of hW b3 a3 (by rw [b2, a2]; unfold Storable; simp only; omega)
  obtain ⟨m, m1, m2, m3⟩ := minus_of hW s3 (constB_holds hW (rep_one hW))
    (by unfold Storable constB; simp only; omega)
    (by rw [s2, b2, a2]; unfold Storable constB; simp only; omega)
  refine ⟨m, ?_, ?_, m3⟩
  · unfold maxTombstone
    rw [b1]; simp only [thenB_ok]
    rw [a1]; simp only [thenB_ok]
    rw [s1]; simp only [thenB_ok]
    exact m1
  · rw [m2, s2, b2, a2]; rfl

theorem thenB_ne_none {a : Option (Res BInt)} {f : BInt → Option (Res BInt)} (h : thenB a f ≠ none) : a ≠ none := by
  rintro rfl; exact h (thenB_none _)

theorem minus_ok (hW : 64 ≤ W) {a b : BInt} {x y : Int} (ha : Holds W a x) (hb : Holds W b y)
    (hn : minus W a b ≠ none) :
    ∃ c, minus W a b = some (.ok c) ∧ c.rng = ⟨a.rng.lo - b.rng.hi, a.rng.hi - b.rng.lo⟩ ∧ Holds W c (x - y) := by
  obtain ⟨c, c1, c2⟩ := minus_holds hW ha hb hn
  obtain ⟨d, d1, d2, _⟩ := C03_sub_exact hW ha hb hn
  rw [c1] at d1
  simp only [Option.some.injEq, Res.ok.injEq] at d1
  subst d1
  exact ⟨c, c1, d2, c2⟩

theorem plus_ok (hW : 64 ≤ W) {a b : BInt} {x y : Int} (ha : Holds W a x) (hb : Holds W b y)
    (hn : plus W a b ≠ none) :
    ∃ c, plus W a b = some (.ok c) ∧ c.rng = ⟨a.rng.lo + b.rng.lo, a.rng.hi + b.rng.hi⟩ ∧ Holds W c (x + y) := by
  refine plus_of hW ha hb ?_
  by_contra hs
  exact hn ((C01_add_rejected_iff hW ha.1 hb.1).mpr hs)

theorem conditionalB_ok (hW : 64 ≤ W) {a b : BInt} {x y : Int} (ha : Holds W a x) (hb : Holds W b y)
    (c : Bool) (hn : conditionalB W c a b ≠ none) :
    ∃ d, conditionalB W c a b = some (.ok d) ∧
      d.rng = ⟨min a.rng.lo b.rng.lo, max a.rng.hi b.rng.hi⟩ ∧ Holds W d (if c then x else y) := by
  refine conditionalB_spec hW ha hb ?_ c
  by_contra hs
  apply hn
  have ra := ha.1.rep hW
  have rb := hb.1.rep hW
  unfold conditionalB commonType
  rw [safeMin_eq hW ra.1 rb.1, safeMax_eq hW ra.2 rb.2, mkInteger_eq hW, if_neg (fun h => hs h.2)]
  rfl

/-- Facts about the underlying type of a range. -/
theorem under_facts (hW : 64 ≤ W) {r : Rng} (hwf : r.Wf W) :
    Rep W (r.under W).lo ∧ Rep W (r.under W).hi ∧ (r.under W).lo ≤ r.lo ∧ r.lo ≤ r.hi ∧
      r.hi ≤ (r.under W).hi := by
  have w := ((wf_iff hW _).mp hwf).1
  obtain ⟨ht, hf⟩ := under_spec hW hwf
  have f1 := hf r.lo ⟨by omega, w⟩
  have f2 := hf r.hi ⟨w, by omega⟩
  have := (rng_wf_of_ty hW ht).rep hW
  exact ⟨this.1, this.2, f1.1, w, f2.2⟩

theorem spareBelow_ok (hW : 64 ≤ W) {r : Rng} (hwf : r.Wf W) (hn : spareBelow W r ≠ none) :
    ∃ c, spareBelow W r = some (.ok c) ∧ c.rng = ⟨r.lo - (r.under W).lo, r.lo - (r.under W).lo⟩ ∧
      Holds W c (r.lo - (r.under W).lo) :=
  minus_ok hW (constB_holds hW (hwf.rep hW).1) (constB_holds hW (under_facts hW hwf).1) hn

theorem spareAbove_ok (hW : 64 ≤ W) {r : Rng} (hwf : r.Wf W) (hn : spareAbove W r ≠ none) :
    ∃ c, spareAbove W r = some (.ok c) ∧ c.rng = ⟨(r.under W).hi - r.hi, (r.under W).hi - r.hi⟩ ∧
      Holds W c ((r.under W).hi - r.hi) :=
  minus_ok hW (constB_holds hW (under_facts hW hwf).2.1) (constB_holds hW (hwf.rep hW).2) hn

theorem maxTombstone_ok (hW : 64 ≤ W) {r : Rng} (hwf : r.Wf W) (hn : maxTombstone W r ≠ none) :
    ∃ c, maxTombstone W r = some (.ok c) ∧ c.rng = ⟨spares W r - 1, spares W r - 1⟩ ∧
      Holds W c (spares W r - 1) := by
  unfold maxTombstone at hn ⊢
  obtain ⟨b, b1, b2, b3⟩ := spareBelow_ok hW hwf (thenB_ne_none hn)
  rw [b1] at hn ⊢; simp only [thenB_ok] at hn ⊢
  obtain ⟨a, a1, a2, a3⟩ := spareAbove_ok hW hwf (thenB_ne_none hn)
  rw [a1] at hn ⊢; simp only [thenB_ok] at hn ⊢
  obtain ⟨s, s1, s2, s3⟩ := plus_ok hW b3 a3 (thenB_ne_none hn)
  rw [s1] at hn ⊢; simp only [thenB_ok] at hn ⊢
  obtain ⟨m, m1, m2, m3⟩ := minus_ok hW s3 (constB_holds hW (rep_one hW)) hn
  refine ⟨m, m1, ?_, m3⟩
  rw [m2, s2, b2, a2]; rfl

/-- C19: `tombstone_traits<integer<lo, hi>>::spare_representations`, whenever it compiles,
is the number of representations of the underlying type outside `[lo, hi]`. -/
theorem C19_spare_count (hW : 64 ≤ W) {r : Rng} (hwf : r.Wf W)
    (hn : spareRepresentations W r ≠ none) :
    ∃ rr, Yields (spareRepresentations W r) rr
      (((r.under W).hi - (r.under W).lo + 1) - (r.hi - r.lo + 1)) := by
  unfold spareRepresentations at hn ⊢
  obtain ⟨m, m1, m2, m3⟩ := maxTombstone_ok hW hwf (thenB_ne_none hn)
  rw [m1] at hn ⊢
  simp only [thenB_ok] at hn ⊢
  have em : m.rng.hi = spares W r - 1 := by rw [m2]
  obtain ⟨c, c1, c2, c3⟩ := plus_ok hW (constB_holds hW (m3.1.rep hW).2) (constB_holds hW (rep_one hW)) hn
  refine ⟨c.rng, yields_of hW ⟨c, c1, rfl, ?_⟩ c3.1⟩
  rw [c3.2, em]; unfold spares; congr 1; omega

theorem tombMake_spec (hW : 64 ≤ W) {r : Rng} (hwf : r.Wf W)
    {i : Int} (h0 : 0 ≤ i) (h1 : i < spares W r) (hri : Rep W i) (hn : tombMake W r i ≠ none) :
    ∃ v, tombMake W r i = some (.ok ⟨r, v⟩) ∧ (r.under W).Fits v ∧
      v = (if i < r.lo - (r.under W).lo then i + (r.under W).lo
        else i - (r.lo - (r.under W).lo) + r.hi + 1) := by
  obtain ⟨u1, u2, u3, u4, u5⟩ := under_facts hW hwf
  unfold spares at h1
  have hfit : (r.under W).Fits (if i < r.lo - (r.under W).lo then i + (r.under W).lo
        else i - (r.lo - (r.under W).lo) + r.hi + 1) := by
    unfold CTy.Fits; split <;> omega
  refine ⟨_, ?_, hfit, rfl⟩
  have hi := constB_holds hW (v := i) hri
  unfold tombMake at hn ⊢
  obtain ⟨b, b1, b2, b3⟩ := spareBelow_ok hW hwf (thenB_ne_none hn)
  rw [b1] at hn ⊢; simp only [thenB_ok] at hn ⊢
  obtain ⟨v1, e1, e2, e3⟩ := plus_ok hW hi (constB_holds hW u1) (thenB_ne_none hn)
  rw [e1] at hn ⊢; simp only [thenB_ok] at hn ⊢
  obtain ⟨t1, f1, f2, f3⟩ := minus_ok hW hi b3 (thenB_ne_none hn)
  rw [f1] at hn ⊢; simp only [thenB_ok] at hn ⊢
  obtain ⟨t2, g1, g2, g3⟩ := plus_ok hW f3 (constB_holds hW (hwf.rep hW).2) (thenB_ne_none hn)
  rw [g1] at hn ⊢; simp only [thenB_ok] at hn ⊢
  obtain ⟨v2, k1, k2, k3⟩ := plus_ok hW g3 (constB_holds hW (rep_one hW)) (thenB_ne_none hn)
  obtain ⟨o, o1, o2, _, _⟩ := C09_compare_exact hW hi.1 b3.1 hi.2 b3.2
  rw [k1]
  simp only [thenB_ok, o1, Res.ok_bind, Res.pure_def]
  have hv : (if o = .lt then v1 else v2).value =
      .ok (if i < r.lo - (r.under W).lo then i + (r.under W).lo
        else i - (r.lo - (r.under W).lo) + r.hi + 1) := by
    by_cases hlt : i < r.lo - (r.under W).lo
    · rw [if_pos (o2.mpr hlt), if_pos hlt, e3.2]
    · rw [if_neg (fun h => hlt (o2.mp h)), if_neg hlt, k3.2]
  rw [hv]
  simp only [Res.ok_bind, Option.some.injEq, Res.ok.injEq]
  unfold Rng.unchecked
  rw [CTy.wrap_of_fits (under_spec hW hwf).1.1 hfit]

/-- What `index` computes for any representation of the underlying type. -/
theorem tombIndex_spec (hW : 64 ≤ W) {r : Rng} (hwf : r.Wf W)
    {v : Int} (hv : (r.under W).Fits v) (hn : tombIndex W ⟨r, v⟩ ≠ none) :
    ∃ c, tombIndex W ⟨r, v⟩ = some (.ok c) ∧ c.rng = ⟨-1, spares W r - 1⟩ ∧
      Holds W c (if v < r.lo then v - (r.under W).lo
        else if r.hi < v then v + (r.lo - (r.under W).lo) - r.hi - 1 else -1) := by
  have ⟨p1, p2⟩ := pow_facts hW
  obtain ⟨u1, u2, u3, u4, u5⟩ := under_facts hW hwf
  obtain ⟨ht, _⟩ := under_spec hW hwf
  have hbv := holds_of_mem hW (r := ⟨(r.under W).lo, (r.under W).hi⟩) (rng_wf_of_ty hW ht) hv
  unfold CTy.Fits at hv
  have cl := constB_holds hW (v := r.lo) (hwf.rep hW).1
  have ch := constB_holds hW (v := r.hi) (hwf.rep hW).2
  have cm := constB_holds hW (v := -1) (by unfold Rep; omega)
  unfold tombIndex at hn ⊢
  simp only at hn ⊢
  obtain ⟨b, b1, b2, b3⟩ := spareBelow_ok hW hwf (thenB_ne_none hn)
  rw [b1] at hn ⊢; simp only [thenB_ok] at hn ⊢
  obtain ⟨v1, e1, e2, e3⟩ := minus_ok hW hbv.1 (constB_holds hW u1) (thenB_ne_none hn)
  rw [e1] at hn ⊢; simp only [thenB_ok] at hn ⊢
  obtain ⟨t1, f1, f2, f3⟩ := plus_ok hW hbv.1 b3 (thenB_ne_none hn)
  rw [f1] at hn ⊢; simp only [thenB_ok] at hn ⊢
  obtain ⟨t2, g1, g2, g3⟩ := minus_ok hW f3 ch (thenB_ne_none hn)
  rw [g1] at hn ⊢; simp only [thenB_ok] at hn ⊢
  obtain ⟨v2, k1, k2, k3⟩ := minus_ok hW g3 (constB_holds hW (rep_one hW)) (thenB_ne_none hn)
  obtain ⟨o1, q1, q2, _, _⟩ := C09_compare_exact hW hbv.1.1 cl.1 hbv.1.2 cl.2
  obtain ⟨o2, s1, _, _, s4⟩ := C09_compare_exact hW hbv.1.1 ch.1 hbv.1.2 ch.2
  rw [k1] at hn ⊢
  simp only [thenB_ok, q1, s1] at hn ⊢
  have v2r : v2.rng = ⟨r.lo - r.hi - 1, (r.under W).hi + (r.lo - (r.under W).lo) - r.hi - 1⟩ := by
    rw [k2, g2, f2, b2, hbv.2]; simp only [constB]; congr 1; omega
  obtain ⟨inn, i1, i2, i3⟩ := conditionalB_ok hW k3 cm (o2 = .gt) (thenB_ne_none hn)
  rw [i1] at hn ⊢; simp only [thenB_ok] at hn ⊢
  have v1r : v1.rng = ⟨0, (r.under W).hi - (r.under W).lo⟩ := by
    rw [e2, hbv.2]; simp only [constB]; congr 1; omega
  obtain ⟨res, j1, j2, j3⟩ := conditionalB_ok hW e3 i3 (o1 = .lt) (thenB_ne_none hn)
  rw [j1] at hn ⊢; simp only [thenB_ok] at hn ⊢
  obtain ⟨m, m1, m2, m3⟩ := maxTombstone_ok hW hwf (thenB_ne_none hn)
  rw [m1] at hn ⊢; simp only [thenB_ok] at hn ⊢
  have hsp : spares W r = r.lo - (r.under W).lo + ((r.under W).hi - r.hi) := rfl
  have hmk : mkInteger W (-1) m.rng.hi = some ⟨-1, spares W r - 1⟩ := by
    have hne : mkInteger W (-1) m.rng.hi ≠ none := by
      intro h; rw [h] at hn; exact hn rfl
    rw [mkInteger_eq hW] at hne ⊢
    split at hne
    · rename_i h; rw [if_pos h, m2]
    · exact absurd rfl hne
  have hitwf := wf_of_mk hW hmk
  have hitrep := hitwf.rep hW
  have hval : (if decide (o1 = .lt) = true then v - (r.under W).lo else
      if decide (o2 = .gt) = true then v + (r.lo - (r.under W).lo) - r.hi - 1 else -1) =
      (if v < r.lo then v - (r.under W).lo
        else if r.hi < v then v + (r.lo - (r.under W).lo) - r.hi - 1 else -1) := by
    have a1 : (decide (o1 = .lt) = true) ↔ v < r.lo := by rw [decide_eq_true_iff]; exact q2
    have a2 : (decide (o2 = .gt) = true) ↔ r.hi < v := by rw [decide_eq_true_iff]; exact s4
    simp only [a1, a2]
  rw [hval] at j3
  have hin : -1 ≤ (if v < r.lo then v - (r.under W).lo
        else if r.hi < v then v + (r.lo - (r.under W).lo) - r.hi - 1 else -1) ∧
      (if v < r.lo then v - (r.under W).lo
        else if r.hi < v then v + (r.lo - (r.under W).lo) - r.hi - 1 else -1) ≤ spares W r - 1 := by
    split
    · omega
    · split <;> omega
  obtain ⟨c, c1, c2, c3⟩ := (assumeInRange_spec hW (lo := -1) (hi := spares W r - 1) j3
    hitrep.1 hitrep.2
    (by rw [j2, v1r, i2, v2r]; simp only [constB]; omega) (by omega)).1 hin
  rw [hmk] at hn ⊢
  simp only [Option.bind_eq_bind, Option.bind_some] at hn ⊢
  rw [c1]
  simp only [Option.bind_some]
  split
  · rename_i he
    exact ⟨c, rfl, he, c3⟩
  · obtain ⟨d, d1, d2, d3⟩ := convert_holds hW hitwf c3 (by rw [c2]; simp only; omega)
    exact ⟨d, d1, d2, d3⟩

/-- The function `index` compiles for values of the type. -/
def IndexCompiles (W : Nat) (r : Rng) : Prop := ∀ v, (r.under W).Fits v → tombIndex W ⟨r, v⟩ ≠ none

/-- The function `make` compiles for every index in range (`0 ≤ i < spares`, C++ line 101). -/
def MakeCompiles (W : Nat) (r : Rng) : Prop :=
  ∀ i, 0 ≤ i → i < spares W r → Rep W i ∧ tombMake W r i ≠ none

/-- C19: whenever the functions compile, for every index `i` below the number of spare
representations, `make(i)` is a representation that no live value has, and `index` of it
is `i` again. -/
theorem C19_make_index (hW : 64 ≤ W) {r : Rng} (hwf : r.Wf W)
    (hmc : MakeCompiles W r) (hic : IndexCompiles W r)
    {i : Int} (h0 : 0 ≤ i) (h1 : i < ((r.under W).hi - (r.under W).lo + 1) - (r.hi - r.lo + 1)) :
    ∃ t, tombMake W r i = some (.ok t) ∧ t.rng = r ∧ (r.under W).Fits t.rep ∧
      ¬ (r.lo ≤ t.rep ∧ t.rep ≤ r.hi) ∧ ∃ rr, Yields (tombIndex W t) rr i := by
  obtain ⟨u1, u2, u3, u4, u5⟩ := under_facts hW hwf
  have hsp : spares W r = r.lo - (r.under W).lo + ((r.under W).hi - r.hi) := rfl
  have hm := hmc i h0 (by omega)
  obtain ⟨v, v1, v2, v3⟩ := tombMake_spec hW hwf h0 (by omega) hm.1 hm.2
  obtain ⟨c, c1, c2, c3⟩ := tombIndex_spec hW hwf v2 (hic v v2)
  refine ⟨⟨r, v⟩, v1, rfl, v2, ?_, c.rng, yields_of hW ⟨c, c1, rfl, ?_⟩ c3.1⟩
  · simp only; rw [v3]; split <;> omega
  · rw [c3.2]
    congr 1
    rw [v3]
    by_cases hlt : i < r.lo - (r.under W).lo
    · rw [if_pos hlt, if_pos (by omega)]; omega
    · rw [if_neg hlt, if_neg (by omega), if_pos (by omega)]; omega

/-- C19: `index` of a live value is `-1`. -/
theorem C19_live_index (hW : 64 ≤ W) {a : BInt} {x : Int} (ha : Holds W a x)
    (hnc : a.rng.lo ≠ a.rng.hi) (hic : IndexCompiles W a.rng) :
    ∃ rr, Yields (tombIndex W a) rr (-1) := by
  have hrep : a.rep = x ∧ a.rng.Mem a.rep := by
    have h := ha.2
    unfold BInt.value at h
    rw [if_neg hnc] at h
    split at h
    · rename_i hm; simp at h; exact ⟨h, hm⟩
    · simp at h
  obtain ⟨ht, hf⟩ := under_spec hW ha.1
  obtain ⟨c, c1, c2, c3⟩ := tombIndex_spec hW ha.1 (hf _ hrep.2) (hic _ (hf _ hrep.2))
  obtain ⟨m1, m2⟩ := hrep.2
  refine ⟨c.rng, yields_of hW ⟨c, c1, rfl, ?_⟩ c3.1⟩
  rw [c3.2, if_neg (by omega), if_neg (by omega)]

/-- C19: `make` is injective and every representation outside the range is some
tombstone. -/
theorem C19_make_bijective (hW : 64 ≤ W) {r : Rng} (hwf : r.Wf W) (hmc : MakeCompiles W r) :
    (∀ i j t, 0 ≤ i → i < spares W r → 0 ≤ j → j < spares W r →
      tombMake W r i = some (.ok t) → tombMake W r j = some (.ok t) → i = j) ∧
    (∀ v, (r.under W).Fits v → ¬ (r.lo ≤ v ∧ v ≤ r.hi) →
      ∃ i, 0 ≤ i ∧ i < spares W r ∧ tombMake W r i = some (.ok ⟨r, v⟩)) := by
  obtain ⟨u1, u2, u3, u4, u5⟩ := under_facts hW hwf
  have hsp : spares W r = r.lo - (r.under W).lo + ((r.under W).hi - r.hi) := rfl
  refine ⟨fun i j t h1 h2 h3 h4 h5 h6 => ?_, fun v hv hout => ?_⟩
  · obtain ⟨v, a1, _, a3⟩ := tombMake_spec hW hwf h1 h2 (hmc i h1 h2).1 (hmc i h1 h2).2
    obtain ⟨w, b1, _, b3⟩ := tombMake_spec hW hwf h3 h4 (hmc j h3 h4).1 (hmc j h3 h4).2
    rw [h5] at a1
    rw [h6, a1] at b1
    simp only [Option.some.injEq, Res.ok.injEq, BInt.mk.injEq, true_and] at b1
    rw [a3, b3] at b1
    split at b1 <;> split at b1 <;> omega
  · unfold CTy.Fits at hv
    by_cases hlt : v < r.lo
    · have hm := hmc (v - (r.under W).lo) (by omega) (by omega)
      obtain ⟨w, a1, _, a3⟩ := tombMake_spec hW hwf (i := v - (r.under W).lo) (by omega) (by omega) hm.1 hm.2
      refine ⟨v - (r.under W).lo, by omega, by omega, ?_⟩
      rw [a1, a3, if_pos (by omega)]
      simp only [Option.some.injEq, Res.ok.injEq, BInt.mk.injEq, true_and]; omega
    · have hm := hmc (v + (r.lo - (r.under W).lo) - r.hi - 1) (by omega) (by omega)
      obtain ⟨w, a1, _, a3⟩ := tombMake_spec hW hwf (i := v + (r.lo - (r.under W).lo) - r.hi - 1)
        (by omega) (by omega) hm.1 hm.2
      refine ⟨v + (r.lo - (r.under W).lo) - r.hi - 1, by omega, by omega, ?_⟩
      rw [a1, a3, if_neg (by omega)]
      simp only [Option.some.injEq, Res.ok.injEq, BInt.mk.injEq, true_and]; omega

/-- C19: everything compiles for every type whose underlying type is narrower than the
widest built-in type, so for those types there are no further conditions. -/
theorem C19_compiles (hW : 64 ≤ W) {r : Rng} (hwf : r.Wf W) (hb : (r.under W).bits < W) :
    MakeCompiles W r ∧ IndexCompiles W r ∧ spareRepresentations W r ≠ none := by
  have ⟨p1, p2⟩ := pow_facts hW
  have u := under_small hW hwf hb
  have hsp : spares W r = r.lo - (r.under W).lo + ((r.under W).hi - r.hi) := rfl
  obtain ⟨b, b1, b2, b3⟩ := spareBelow_spec hW hwf hb
  obtain ⟨m, m1, m2, m3⟩ := maxTombstone_spec hW hwf hb
  have em : m.rng.hi = spares W r - 1 := by rw [m2]
  refine ⟨fun i h0 h1 => ⟨by unfold Rep; omega, ?_⟩, fun v hv => ?_, ?_⟩
  · have hi := constB_holds hW (v := i) (by unfold Rep; omega)
    obtain ⟨v1, e1, e2, e3⟩ := plus_of hW hi (constB_holds hW (v := (r.under W).lo) (by unfold Rep; omega))
      (by simp only [constB]; unfold Storable; omega)
    obtain ⟨t1, f1, f2, f3⟩ := minus_of hW hi b3 (by rw [b2]; unfold Storable; simp only; omega)
      (by rw [b2]; unfold Storable; simp only [constB]; omega)
    obtain ⟨t2, g1, g2, g3⟩ := plus_of hW f3 (constB_holds hW (v := r.hi) (by unfold Rep; omega))
      (by rw [f2, b2]; simp only [constB]; unfold Storable; omega)
    obtain ⟨v2, k1, k2, k3⟩ := plus_of hW g3 (constB_holds hW (rep_one hW))
      (by rw [g2, f2, b2]; simp only [constB]; unfold Storable; omega)
    unfold tombMake
    rw [b1]; simp only [thenB_ok]
    rw [e1]; simp only [thenB_ok]
    rw [f1]; simp only [thenB_ok]
    rw [g1]; simp only [thenB_ok]
    rw [k1]
    simp
  · obtain ⟨ht, _⟩ := under_spec hW hwf
    -- only the ranges matter, and those are the same for every representation
    obtain ⟨bv, hbv, hbr, x, hx⟩ : ∃ bv : BInt, bv = (Rng.mk (r.under W).lo (r.under W).hi).unchecked W v ∧
        bv.rng = ⟨(r.under W).lo, (r.under W).hi⟩ ∧ ∃ x, Holds W bv x := by
      refine ⟨_, rfl, rfl, ?_⟩
      exact ⟨v, (holds_of_mem hW (rng_wf_of_ty hW ht) hv).1⟩
    obtain ⟨v1, e1, e2, e3⟩ := minus_of hW hx (constB_holds hW (v := (r.under W).lo) (by unfold Rep; omega))
      (by simp only [constB]; unfold Storable; omega)
      (by rw [hbr]; simp only [constB]; unfold Storable; omega)
    obtain ⟨t1, f1, f2, f3⟩ := plus_of hW hx b3 (by rw [b2, hbr]; unfold Storable; simp only; omega)
    obtain ⟨t2, g1, g2, g3⟩ := minus_of hW f3 (constB_holds hW (v := r.hi) (by unfold Rep; omega))
      (by simp only [constB]; unfold Storable; omega)
      (by rw [f2, b2, hbr]; simp only [constB]; unfold Storable; omega)
    obtain ⟨v2, k1, k2, k3⟩ := minus_of hW g3 (constB_holds hW (rep_one hW))
      (by simp only [constB]; unfold Storable; omega)
      (by rw [g2, f2, b2, hbr]; simp only [constB]; unfold Storable; omega)
    have cl := constB_holds hW (v := r.lo) (by unfold Rep; omega)
    have ch := constB_holds hW (v := r.hi) (by unfold Rep; omega)
    have cm := constB_holds hW (v := -1) (by unfold Rep; omega)
    obtain ⟨o1, q1, q2, _, _⟩ := C09_compare_exact hW hx.1 cl.1 hx.2 cl.2
    obtain ⟨o2, s1, _, _, s4⟩ := C09_compare_exact hW hx.1 ch.1 hx.2 ch.2
    have v2r : v2.rng = ⟨r.lo - r.hi - 1, (r.under W).hi + (r.lo - (r.under W).lo) - r.hi - 1⟩ := by
      rw [k2, g2, f2, b2, hbr]; simp only [constB]; congr 1; omega
    obtain ⟨inn, i1, i2, i3⟩ := conditionalB_spec hW k3 cm
      (by rw [v2r]; simp only [constB]; unfold Storable; omega) (o2 = .gt)
    have v1r : v1.rng = ⟨0, (r.under W).hi - (r.under W).lo⟩ := by
      rw [e2, hbr]; simp only [constB]; congr 1; omega
    obtain ⟨res, j1, j2, j3⟩ := conditionalB_spec hW e3 i3
      (by rw [v1r, i2, v2r]; simp only [constB]; unfold Storable; omega) (o1 = .lt)
    have hmk : mkInteger W (-1) m.rng.hi = some ⟨-1, spares W r - 1⟩ := by
      rw [m2]
      simp only
      rw [mkInteger_eq hW, if_pos (by unfold Storable; omega)]
    have hitwf := wf_of_mk hW hmk
    have hsp' := assumeInRange_spec hW (lo := -1) (hi := spares W r - 1) j3
      (by unfold Rep; omega) (by unfold Rep; omega)
      (by rw [j2, v1r, i2, v2r]; simp only [constB]; omega) (by omega)
    unfold tombIndex
    simp only
    rw [b1]; simp only [thenB_ok]
    rw [← hbv]
    rw [e1]; simp only [thenB_ok]
    rw [f1]; simp only [thenB_ok]
    rw [g1]; simp only [thenB_ok]
    rw [k1]
    simp only [thenB_ok, q1, s1]
    rw [i1]; simp only [thenB_ok]
    rw [j1]; simp only [thenB_ok]
    rw [m1]; simp only [thenB_ok]
    rw [hmk]
    simp only [Option.bind_eq_bind, Option.bind_some]
    by_cases hin : -1 ≤ (if decide (o1 = .lt) = true then x - (r.under W).lo else
      if decide (o2 = .gt) = true then x + (r.lo - (r.under W).lo) - r.hi - 1 else -1) ∧
      (if decide (o1 = .lt) = true then x - (r.under W).lo else
      if decide (o2 = .gt) = true then x + (r.lo - (r.under W).lo) - r.hi - 1 else -1) ≤ spares W r - 1
    · obtain ⟨c, c1, c2, c3⟩ := hsp'.1 hin
      rw [c1]
      simp only [Option.bind_some]
      split
      · simp
      · obtain ⟨d, d1, d2, d3⟩ := convert_holds hW hitwf c3 (by rw [c2]; simp only; omega)
        rw [d1]; simp
    · rw [hsp'.2 hin]
      simp
  · obtain ⟨c, c1, _⟩ := plus_of hW (constB_holds hW (v := m.rng.hi) (by rw [em]; unfold Rep; omega))
      (constB_holds hW (rep_one hW)) (by simp only [constB, em]; unfold Storable; omega)
    unfold spareRepresentations; rw [m1]
    simp only [thenB_ok]
    rw [c1]; simp

/-- `integer<1, 10>` is stored in `signed char`: 129 + 117 spare representations. -/
example : (Rng.mk 1 10).Wf 128 ∧ ((Rng.mk 1 10).under 128).bits < 128 ∧
    spareRepresentations 128 ⟨1, 10⟩ = some (.ok (constB 246)) ∧
    tombMake 128 ⟨1, 10⟩ 129 = some (.ok ⟨⟨1, 10⟩, 11⟩) ∧
    tombIndex 128 ⟨⟨1, 10⟩, 11⟩ = some (.ok ⟨⟨-1, 245⟩, 129⟩) := by decide +kernel
/-- A type without spare representations. -/
example : spareRepresentations 128 ⟨0, 255⟩ = some (.ok (constB 0)) := by decide +kernel
/-- For values above the widest signed maximum `spare_above` does not compile, so such
types cannot be used with `tombstone_traits` at all. -/
example : (Rng.mk 0 (2 ^ 64 - 2)).Wf 64 ∧ spareAbove 64 ⟨0, 2 ^ 64 - 2⟩ = none := by decide +kernel

end
end Verif.Bounded
