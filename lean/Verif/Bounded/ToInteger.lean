import Verif.Bounded.CheckInRange
import Verif.Bounded.Digits
import Mathlib.Data.Nat.Digits.Defs
import Mathlib.Data.List.Induction

/-!
# `to_integer` (property C15)

A string is the list of its `char` codes.
-/

namespace Verif.Bounded

open Verif

/-- source/bounded/to_integer.cpp 28-34 `as_digit`: `c - '0'` is computed in `int`. -/
def asDigit (W : Nat) (c : Int) : Option (Res BInt) :=
  checkInRange W (.builtin intTy (c - 48)) (.bounded (constB 0)) (.bounded (constB 9))

/-- source/bounded/to_integer.cpp 39-42: one iteration. -/
def toIntegerStep (W : Nat) (maximum : Int) (pr : BInt) (c : Int) : Option (Res BInt) :=
  thenB (mul W pr (constB 10)) fun shifted =>
    thenB (asDigit W c) fun d =>
      thenB (plus W shifted d) fun sum =>
        thenB (checkInRange W (.bounded sum) (.bounded (constB 0)) (.bounded (constB maximum))) fun r =>
          assign W pr r

/-- source/bounded/to_integer.cpp 39-42: the loop. -/
def toIntegerLoop (W : Nat) (maximum : Int) (pr : BInt) : List Int → Option (Res BInt)
  | [] => some (.ok pr)
  | c :: s => thenB (toIntegerStep W maximum pr c) fun pr' => toIntegerLoop W maximum pr' s

/-- source/bounded/to_integer.cpp 36-44 `to_integer_positive_impl<maximum>`. -/
def toIntegerPositive (W : Nat) (maximum : Int) (s : List Int) : Option (Res BInt) := do
  let r ← mkInteger W 0 maximum
  thenB (convert W r (constB 0)) fun pr => toIntegerLoop W maximum pr s

/-- source/bounded/to_integer.cpp 68 `BOUNDED_CONDITIONAL(negative, -p, p)`: both
branches are converted to the common type (include/bounded/conditional.hpp 11-14).
Here the negation is evaluated in both cases; it has no effect. -/
def negateIf (W : Nat) (negative : Bool) (p : BInt) : Option (Res BInt) :=
  thenB (neg W p) fun n => do
    let r ← commonType W n.rng p.rng
    convert W r (if negative then n else p)

/-- source/bounded/to_integer.cpp 53-72: the lambda `impl`, called with a non-empty
string. -/
def toIntegerImpl (W : Nat) (minimum maximum : Int) (s : List Int) : Option (Res BInt) :=
  if minimum < 0 then
    let combinedMax := max (safeAbs W minimum) (safeAbs W maximum)
    if s.head? = some 45 then
      if s.tail = [] then some .exn
      else thenB (toIntegerPositive W combinedMax s.tail) (negateIf W true)
    else thenB (toIntegerPositive W combinedMax s) (negateIf W false)
  else toIntegerPositive W maximum s

/-- source/bounded/to_integer.cpp 47-74 `to_integer<minimum, maximum>(str)`. -/
def toInteger (W : Nat) (minimum maximum : Int) (s : List Int) : Option (Res BInt) :=
  if s = [] then some .exn
  else thenB (toIntegerImpl W minimum maximum s) fun v =>
    checkInRange W (.bounded v) (.bounded (constB minimum)) (.bounded (constB maximum))

/-- source/bounded/to_integer.cpp 76-79 `to_integer<T>(str)` for a built-in `T`. -/
def toIntegerBuiltin (W : Nat) (t : CTy) (s : List Int) : Option (Res Int) :=
  thenB (toInteger W t.lo t.hi s) fun c => some (do return t.wrap (← c.value))

/-! ## Specification -/

/-- `s` is a non-empty sequence of decimal digits that denotes `v`. -/
def Numeral (s : List Int) (v : Int) : Prop :=
  ∃ ds : List Nat, ds ≠ [] ∧ (∀ d ∈ ds, d < 10) ∧ s = ds.map (fun d : Nat => 48 + (d : Int)) ∧
    v = (Nat.ofDigits 10 ds.reverse : Nat)

/-- `s` denotes `v`: a numeral, or, if negative results are possible at all, `-`
followed by a numeral. -/
def Denotes (minimum : Int) (s : List Int) (v : Int) : Prop :=
  Numeral s v ∨ (minimum < 0 ∧ ∃ rest n, s = 45 :: rest ∧ Numeral rest n ∧ v = -n)

/-- The largest magnitude of a value of the type. -/
def maxMagnitude (minimum maximum : Int) : Int := if minimum < 0 then max |minimum| |maximum| else maximum

section
variable {W : Nat}

theorem mul_ten (hW : 64 ≤ W) {a : BInt} {x M : Int} (ha : Holds W a x) (hr : a.rng = ⟨0, M⟩)
    (hM : 10 * M < 2 ^ W) :
    ∃ c, mul W a (constB 10) = some (.ok c) ∧ c.rng = ⟨0, M * 10⟩ ∧ Holds W c (x * 10) := by
  have ⟨p1, p2⟩ := pow_facts hW
  have w := (wf_iff hW _).mp ha.1
  rw [hr] at w
  simp only at w
  have r10 : Rep W 10 := by unfold Rep; omega
  have hmr : mulRange a.rng (constB 10).rng = ⟨0, M * 10⟩ := by
    rw [hr]; unfold mulRange constB; simp only
    congr 1 <;> omega
  have hl : -(2 ^ (W - 1)) ≤ (mulRange a.rng (constB 10).rng).lo := by rw [hmr]; simp only; omega
  have hty := mulTy_eq hW ha.1 (constB_holds hW r10).1 hl
  rw [hmr] at hty
  simp only at hty
  rw [mkInteger_eq hW, if_pos (by unfold Storable; omega)] at hty
  obtain ⟨c, c1, c2, c3, _, c5⟩ := mul_value hW ha.1 (constB_holds hW r10).1 hl hty ha.2 (constB_holds hW r10).2
  exact ⟨c, c1, c2, by rw [c2]; exact c5, c3⟩

theorem plus_of (hW : 64 ≤ W) {a b : BInt} {x y : Int} (ha : Holds W a x) (hb : Holds W b y)
    (h : Storable W (a.rng.lo + b.rng.lo) (a.rng.hi + b.rng.hi)) :
    ∃ c, plus W a b = some (.ok c) ∧ c.rng = ⟨a.rng.lo + b.rng.lo, a.rng.hi + b.rng.hi⟩ ∧ Holds W c (x + y) := by
  have hn : plus W a b ≠ none := by
    intro hn
    rw [C01_add_rejected_iff hW ha.1 hb.1] at hn
    exact hn h
  obtain ⟨c, c1, c2⟩ := plus_holds hW ha hb hn
  obtain ⟨d, d1, d2, _⟩ := C01_add_exact hW ha hb hn
  rw [c1] at d1
  simp only [Option.some.injEq, Res.ok.injEq] at d1
  subst d1
  exact ⟨c, c1, d2, c2⟩

theorem neg_of (hW : 64 ≤ W) {a : BInt} {x : Int} (ha : Holds W a x)
    (h : Storable W (-a.rng.hi) (-a.rng.lo)) :
    ∃ c, neg W a = some (.ok c) ∧ c.rng = ⟨-a.rng.hi, -a.rng.lo⟩ ∧ Holds W c (-x) := by
  have hn : neg W a ≠ none := by
    intro hn
    rw [C03_neg_rejected_iff hW ha.1] at hn
    exact hn h
  obtain ⟨c, c1, c2⟩ := neg_holds hW ha hn
  obtain ⟨d, d1, d2, _⟩ := C03_neg_exact hW ha hn
  rw [c1] at d1
  simp only [Option.some.injEq, Res.ok.injEq] at d1
  subst d1
  exact ⟨c, c1, d2, c2⟩

/-- `check_in_range` of a bounded value against constants compiles if the ranges meet. -/
theorem check_const (hW : 64 ≤ W) {v : BInt} {x lo hi : Int} (hv : Holds W v x) (rl : Rep W lo) (rh : Rep W hi)
    (hlh : lo ≤ hi) (hne : lo ≤ v.rng.hi ∧ v.rng.lo ≤ hi) :
    (lo ≤ x ∧ x ≤ hi → ∃ c, checkInRange W (.bounded v) (.bounded (constB lo)) (.bounded (constB hi)) = some (.ok c) ∧
      c.rng = ⟨max lo v.rng.lo, min hi v.rng.hi⟩ ∧ Holds W c x) ∧
    (¬ (lo ≤ x ∧ x ≤ hi) →
      checkInRange W (.bounded v) (.bounded (constB lo)) (.bounded (constB hi)) = some .exn) := by
  have hc : checkInRange W (.bounded v) (.bounded (constB lo)) (.bounded (constB hi)) ≠ none := by
    obtain ⟨c, h1, _⟩ := assumeImpl_spec hW hv rl rh hne hlh
    have : assumeImplArg W (.bounded v) (.bounded (constB lo)) (.bounded (constB hi)) = assumeImpl W v lo hi := rfl
    unfold checkInRange
    rw [this, h1]
    simp
  exact checkInRange_spec hW (v := .bounded v) (lo := .bounded (constB lo)) (hi := .bounded (constB hi)) hv
    (constB_holds hW rl) (constB_holds hW rh) hc trivial trivial

theorem asDigit_spec (hW : 64 ≤ W) {c : Int} (hc : -128 ≤ c ∧ c ≤ 255) :
    (∀ d : Nat, d < 10 → c = 48 + d → ∃ b, asDigit W c = some (.ok b) ∧ b.rng = ⟨0, 9⟩ ∧ Holds W b d) ∧
    ((¬ ∃ d : Nat, d < 10 ∧ c = 48 + d) → asDigit W c = some .exn) := by
  have ⟨p1, p2⟩ := pow_facts hW
  have r0 : Rep W 0 := by unfold Rep; omega
  have r9 : Rep W 9 := by unfold Rep; omega
  have hlo : intTy.lo = -2147483648 := by decide
  have hhi : intTy.hi = 2147483647 := by decide
  have ht : Ty W intTy := by unfold Ty intTy; simp only; omega
  have hv : ArgHolds W (.builtin intTy (c - 48)) (c - 48) := by
    refine ⟨ht, ?_, rfl⟩
    unfold CTy.Fits; rw [hlo, hhi]; omega
  have hmk : mkInteger W 0 9 = some ⟨0, 9⟩ := by
    rw [mkInteger_eq hW, if_pos (by unfold Storable; omega)]
  have hcn : asDigit W c ≠ none := by
    obtain ⟨hh, _⟩ := toB_holds hW hv
    have e : assumeImplArg W (.builtin intTy (c - 48)) (.bounded (constB 0)) (.bounded (constB 9)) =
        assumeImpl W ((Arg.builtin intTy (c - 48)).toB W) 0 9 := by
      unfold assumeImplArg assumeImpl
      rw [hh.2]; rfl
    have el : ((Arg.builtin intTy (c - 48)).toB W).rng.lo = -2147483648 := hlo
    have eh : ((Arg.builtin intTy (c - 48)).toB W).rng.hi = 2147483647 := hhi
    obtain ⟨d, h1, _⟩ := assumeImpl_spec hW hh r0 r9 (by rw [el, eh]; omega) (by omega)
    unfold asDigit checkInRange
    rw [e, h1]
    simp
  have sp := checkInRange_spec hW (v := .builtin intTy (c - 48)) (lo := .bounded (constB 0))
    (hi := .bounded (constB 9)) hv (constB_holds hW r0) (constB_holds hW r9) hcn trivial trivial
  refine ⟨fun d hd he => ?_, fun h => sp.2 ?_⟩
  · obtain ⟨b, b1, b2, b3⟩ := sp.1 (by omega)
    refine ⟨b, b1, ?_, ?_⟩
    · rw [b2]; simp only [Arg.rng, constB, hlo, hhi]; decide
    · rw [he] at b3; convert b3 using 1; omega
  · intro hin
    exact h ⟨(c - 48).toNat, by omega, by omega⟩

theorem toIntegerStep_spec (hW : 64 ≤ W) {M : Int} (hM0 : 0 ≤ M) (hM : 10 * M + 9 < 2 ^ W) {pr : BInt} {p : Int}
    (hp : Holds W pr p) (hr : pr.rng = ⟨0, M⟩) {c : Int} (hc : -128 ≤ c ∧ c ≤ 255) :
    (∀ d : Nat, d < 10 → c = 48 + d → p * 10 + d ≤ M →
      ∃ b, toIntegerStep W M pr c = some (.ok b) ∧ b.rng = ⟨0, M⟩ ∧ Holds W b (p * 10 + d)) ∧
    ((¬ ∃ d : Nat, d < 10 ∧ c = 48 + d ∧ p * 10 + d ≤ M) → toIntegerStep W M pr c = some .exn) := by
  have ⟨p1, p2⟩ := pow_facts hW
  have r0 : Rep W 0 := by unfold Rep; omega
  have rM : Rep W M := by unfold Rep; omega
  have mp := value_mem hp.2 ((wf_iff hW _).mp hp.1).1
  rw [hr] at mp
  unfold Rng.Mem at mp
  simp only at mp
  obtain ⟨s, s1, s2, s3⟩ := mul_ten hW hp hr (by omega)
  have da := asDigit_spec hW hc
  have body : ∀ d : Nat, d < 10 → c = 48 + d →
      toIntegerStep W M pr c = (if p * 10 + (d : Int) ≤ M then toIntegerStep W M pr c else some .exn) ∧
      (p * 10 + d ≤ M → ∃ b, toIntegerStep W M pr c = some (.ok b) ∧ b.rng = ⟨0, M⟩ ∧ Holds W b (p * 10 + d)) := by
    intro d hd he
    obtain ⟨b, b1, b2, b3⟩ := da.1 d hd he
    obtain ⟨t, t1, t2, t3⟩ := plus_of hW s3 b3 (by rw [s2, b2]; unfold Storable; simp only; omega)
    have ck := check_const hW t3 r0 rM hM0 (by rw [t2, s2, b2]; simp only; omega)
    unfold toIntegerStep
    rw [s1]
    simp only [thenB_ok]
    rw [b1]
    simp only [thenB_ok]
    rw [t1]
    simp only [thenB_ok]
    refine ⟨?_, fun hle => ?_⟩
    · split
      · rfl
      · rename_i hgt
        rw [ck.2 (by omega)]
        rfl
    · obtain ⟨r, r1, r2, r3⟩ := ck.1 (by omega)
      have r2' : r.rng = ⟨0, M⟩ := by
        rw [r2, t2, s2, b2]; simp only; congr 1 <;> omega
      rw [r1]
      simp only [thenB_ok]
      refine ⟨r, ?_, r2', r3⟩
      unfold assign
      rw [if_pos (by rw [hr, r2'])]
  refine ⟨fun d hd he hle => (body d hd he).2 hle, fun h => ?_⟩
  by_cases hd : ∃ d : Nat, d < 10 ∧ c = 48 + d
  · obtain ⟨d, hd, he⟩ := hd
    rw [(body d hd he).1, if_neg (fun hle => h ⟨d, hd, he, hle⟩)]
  · unfold toIntegerStep
    rw [s1]
    simp only [thenB_ok]
    rw [da.2 hd]
    rfl

/-- Value of digits from the left with an accumulator. -/
def accum (p : Int) (ds : List Nat) : Int := ds.foldl (fun (a : Int) (d : Nat) => a * 10 + (d : Int)) p

theorem accum_ge {p : Int} (hp : 0 ≤ p) (ds : List Nat) : p ≤ accum p ds := by
  induction ds generalizing p with
  | nil => exact Int.le_refl _
  | cons d ds ih =>
    have := ih (p := p * 10 + d) (by omega)
    show p ≤ accum (p * 10 + d) ds
    omega

theorem accum_zero (ds : List Nat) : accum 0 ds = (Nat.ofDigits 10 ds.reverse : Nat) := by
  induction ds using List.reverseRecOn with
  | nil => rfl
  | append_singleton ds d ih =>
    unfold accum at *
    rw [List.foldl_append, ih, List.reverse_append]
    simp only [List.foldl_cons, List.foldl_nil, List.reverse_cons, List.reverse_nil, List.nil_append,
      List.singleton_append, Nat.ofDigits_cons]
    push_cast; ring

theorem toIntegerLoop_spec (hW : 64 ≤ W) {M : Int} (hM0 : 0 ≤ M) (hM : 10 * M + 9 < 2 ^ W) :
    ∀ (s : List Int) (_ : ∀ c ∈ s, -128 ≤ c ∧ c ≤ 255) {pr : BInt} {p : Int}, Holds W pr p → pr.rng = ⟨0, M⟩ →
    (∀ ds : List Nat, (∀ d ∈ ds, d < 10) → s = ds.map (fun d : Nat => 48 + (d : Int)) → accum p ds ≤ M →
      ∃ b, toIntegerLoop W M pr s = some (.ok b) ∧ b.rng = ⟨0, M⟩ ∧ Holds W b (accum p ds)) ∧
    ((¬ ∃ ds : List Nat, (∀ d ∈ ds, d < 10) ∧ s = ds.map (fun d : Nat => 48 + (d : Int)) ∧ accum p ds ≤ M) →
      toIntegerLoop W M pr s = some .exn)
  | [], _, pr, p, hp, hr => by
    have mp := value_mem hp.2 ((wf_iff hW _).mp hp.1).1
    rw [hr] at mp
    refine ⟨fun ds _ hs _ => ?_, fun h => absurd ⟨[], by simp, rfl, mp.2⟩ h⟩
    have : ds = [] := by simpa using hs.symm
    subst this
    exact ⟨pr, rfl, hr, hp⟩
  | c :: s, hs, pr, p, hp, hr => by
    have mp := value_mem hp.2 ((wf_iff hW _).mp hp.1).1
    rw [hr] at mp
    unfold Rng.Mem at mp
    simp only at mp
    have st := toIntegerStep_spec hW hM0 hM hp hr (hs c (by simp))
    refine ⟨fun ds hd he hle => ?_, fun h => ?_⟩
    · cases ds with
      | nil => simp at he
      | cons d ds =>
        simp only [List.map_cons, List.cons.injEq] at he
        have hge := accum_ge (p := p * 10 + d) (by omega) ds
        have hle' : accum (p * 10 + d) ds ≤ M := hle
        obtain ⟨b, b1, b2, b3⟩ := st.1 d (hd d (by simp)) he.1 (by omega)
        obtain ⟨e, e1, e2, e3⟩ := (toIntegerLoop_spec hW hM0 hM s (fun x hx => hs x (by simp [hx])) b3 b2).1 ds
          (fun x hx => hd x (by simp [hx])) he.2 hle'
        refine ⟨e, ?_, e2, e3⟩
        unfold toIntegerLoop
        rw [b1]
        exact e1
    · unfold toIntegerLoop
      by_cases hd : ∃ d : Nat, d < 10 ∧ c = 48 + d ∧ p * 10 + d ≤ M
      · obtain ⟨d, hd, he, hle⟩ := hd
        obtain ⟨b, b1, b2, b3⟩ := st.1 d hd he hle
        rw [b1]
        refine (toIntegerLoop_spec hW hM0 hM s (fun x hx => hs x (by simp [hx])) b3 b2).2 ?_
        rintro ⟨ds, h1, h2, h3⟩
        exact h ⟨d :: ds, by simpa using ⟨hd, h1⟩, by simp [he, h2], h3⟩
      · rw [st.2 hd]
        rfl

/-- `to_integer_positive_impl`. -/
theorem toIntegerPositive_spec (hW : 64 ≤ W) {M : Int} (hM0 : 0 ≤ M) (hM : 10 * M + 9 < 2 ^ W)
    {s : List Int} (hne : s ≠ []) (hs : ∀ c ∈ s, -128 ≤ c ∧ c ≤ 255) :
    (∀ v, Numeral s v → v ≤ M →
      ∃ b, toIntegerPositive W M s = some (.ok b) ∧ b.rng = ⟨0, M⟩ ∧ Holds W b v) ∧
    ((¬ ∃ v, Numeral s v ∧ v ≤ M) → toIntegerPositive W M s = some .exn) := by
  have ⟨p1, p2⟩ := pow_facts hW
  have r0 : Rep W 0 := by unfold Rep; omega
  have hmk : mkInteger W 0 M = some ⟨0, M⟩ := by
    rw [mkInteger_eq hW, if_pos (by unfold Storable; omega)]
  have hwf := wf_of_mk hW hmk
  obtain ⟨pr, q1, q2, q3⟩ := convert_holds hW hwf (constB_holds hW r0) (by simp only [constB]; omega)
  have key := toIntegerLoop_spec hW hM0 hM s hs q3 q2
  unfold toIntegerPositive
  rw [hmk]
  simp only [Option.bind_eq_bind, Option.bind_some]
  rw [q1]
  simp only [thenB_ok]
  refine ⟨?_, fun h => key.2 ?_⟩
  · rintro v ⟨ds, h0, h1, h2, rfl⟩ hv
    rw [← accum_zero] at hv ⊢
    exact key.1 ds h1 h2 hv
  · rintro ⟨ds, h1, h2, h3⟩
    rw [accum_zero] at h3
    exact h ⟨_, ⟨ds, by rintro rfl; exact hne (by simpa using h2), h1, h2, rfl⟩, h3⟩

theorem Numeral.nonneg {s : List Int} {v : Int} (h : Numeral s v) : 0 ≤ v := by
  obtain ⟨ds, _, _, _, rfl⟩ := h; omega

theorem Numeral.head {s : List Int} {v : Int} (h : Numeral s v) : s.head? ≠ some 45 := by
  obtain ⟨ds, h0, h1, rfl, _⟩ := h
  cases ds with
  | nil => simp
  | cons d ds => simp; omega

theorem negateIf_spec (hW : 64 ≤ W) {M : Int} (hM0 : 0 ≤ M) (hM : 10 * M + 9 < 2 ^ W) {b : BInt} {v : Int}
    (hb : Holds W b v) (hr : b.rng = ⟨0, M⟩) (n : Bool) :
    ∃ c, negateIf W n b = some (.ok c) ∧ c.rng = ⟨-M, M⟩ ∧ Holds W c (if n then -v else v) := by
  have ⟨p1, p2⟩ := pow_facts hW
  obtain ⟨m, m1, m2, m3⟩ := neg_of hW hb (by rw [hr]; unfold Storable; simp only; omega)
  rw [hr] at m2
  simp only at m2
  unfold negateIf
  rw [m1]
  simp only [thenB_ok]
  have hct : commonType W m.rng b.rng = some ⟨-M, M⟩ := by
    unfold commonType
    have a1 := m3.1.rep hW
    have a2 := hb.1.rep hW
    rw [safeMin_eq hW a1.1 a2.1, safeMax_eq hW a1.2 a2.2, m2, hr]
    simp only
    rw [show min (-M) 0 = -M by omega, show max (-0) M = M by omega, mkInteger_eq hW,
      if_pos (by unfold Storable; omega)]
  rw [hct]
  simp only [Option.bind_eq_bind, Option.bind_some]
  have hwf := wf_of_mk hW (show mkInteger W (-M) M = some ⟨-M, M⟩ by
    rw [mkInteger_eq hW, if_pos (by unfold Storable; omega)])
  cases n
  · have e1 : b.rng.lo = 0 := by rw [hr]
    have e2 : b.rng.hi = M := by rw [hr]
    exact convert_holds hW hwf hb ⟨by show -M ≤ b.rng.lo; omega, by show b.rng.hi ≤ M; omega⟩
  · have e1 : m.rng.lo = -M := by rw [m2]
    have e2 : m.rng.hi = -0 := by rw [m2]
    exact convert_holds hW hwf m3 ⟨by show -M ≤ m.rng.lo; omega, by show m.rng.hi ≤ M; omega⟩

/-- C15: for every string and every type whose largest magnitude `M` satisfies
`10 * M + 9 < 2^W` (otherwise the call does not compile, because `positive_result * 10 +
digit` does not), `to_integer<min, max>(str)` returns the number that the string denotes,
typed `integer<min, max>`, exactly when the string denotes an in-range number; every
other string, including the empty one, throws. Nothing overflows on the way, however
long the string is. -/
theorem C15_to_integer_exact (hW : 64 ≤ W) {minimum maximum : Int} (hle : minimum ≤ maximum)
    (hM : 10 * maxMagnitude minimum maximum + 9 < 2 ^ W) {s : List Int}
    (hs : ∀ c ∈ s, -128 ≤ c ∧ c ≤ 255) :
    (∀ v, Denotes minimum s v → minimum ≤ v → v ≤ maximum →
      Yields (toInteger W minimum maximum s) ⟨minimum, maximum⟩ v) ∧
    ((¬ ∃ v, Denotes minimum s v ∧ minimum ≤ v ∧ v ≤ maximum) →
      toInteger W minimum maximum s = some .exn) := by
  have ⟨p1, p2⟩ := pow_facts hW
  by_cases hse : s = []
  · subst hse
    refine ⟨?_, fun _ => rfl⟩
    rintro v (⟨ds, h0, _, h2, _⟩ | ⟨_, rest, n, h, _⟩)
    · exact absurd (by simpa using h2.symm) h0
    · simp at h
  unfold toInteger
  rw [if_neg hse]
  unfold maxMagnitude at hM
  by_cases hneg : minimum < 0
  · rw [if_pos hneg] at hM
    have rl : Rep W minimum := by unfold Rep; rw [Int.abs_eq_natAbs, Int.abs_eq_natAbs] at hM; omega
    have rh : Rep W maximum := by unfold Rep; rw [Int.abs_eq_natAbs, Int.abs_eq_natAbs] at hM; omega
    have hMe : max (safeAbs W minimum) (safeAbs W maximum) = max |minimum| |maximum| := by
      rw [safeAbs_eq hW rl, safeAbs_eq hW rh]
    have hMb : -(max |minimum| |maximum|) ≤ minimum ∧ maximum ≤ max |minimum| |maximum| := by
      rw [Int.abs_eq_natAbs, Int.abs_eq_natAbs]; omega
    unfold toIntegerImpl
    rw [if_pos hneg]
    simp only [hMe]
    generalize hMM : max |minimum| |maximum| = M at *
    have hM0 : 0 ≤ M := by omega
    -- the final check
    have fin : ∀ (c : BInt) (v : Int), c.rng = ⟨-M, M⟩ → Holds W c v →
        (minimum ≤ v ∧ v ≤ maximum → Yields (checkInRange W (.bounded c) (.bounded (constB minimum))
          (.bounded (constB maximum))) ⟨minimum, maximum⟩ v) ∧
        (¬ (minimum ≤ v ∧ v ≤ maximum) → checkInRange W (.bounded c) (.bounded (constB minimum))
          (.bounded (constB maximum)) = some .exn) := by
      intro c v hcr hc
      have ck := check_const hW hc rl rh hle (by rw [hcr]; simp only; omega)
      refine ⟨fun h => ?_, ck.2⟩
      obtain ⟨e, e1, e2, e3⟩ := ck.1 h
      have : e.rng = ⟨minimum, maximum⟩ := by rw [e2, hcr]; simp only; congr 1 <;> omega
      rw [← this]
      exact yields_of_holds hW e1 e3
    by_cases hd : s.head? = some 45
    · rw [if_pos hd]
      obtain ⟨rest, rfl⟩ : ∃ rest, s = 45 :: rest := by
        cases s with
        | nil => simp at hd
        | cons c rest => simp at hd; exact ⟨rest, by rw [hd]⟩
      by_cases hrest : (45 :: rest : List Int).tail = []
      · rw [if_pos hrest]
        have hrest : rest = [] := hrest
        subst hrest
        refine ⟨?_, fun _ => rfl⟩
        rintro v (h | ⟨_, r, n, h, ⟨ds, h0, _, h2, _⟩, _⟩)
        · exact absurd hd h.head
        · simp only [List.cons.injEq, true_and] at h
          subst h
          exact absurd (by simpa using h2.symm) h0
      · rw [if_neg hrest]
        simp only [List.tail_cons] at hrest ⊢
        have ps := toIntegerPositive_spec hW hM0 hM hrest (fun c hc => hs c (by simp [hc]))
        refine ⟨?_, fun h => ?_⟩
        · rintro v (h | ⟨_, r, n, h, hn, rfl⟩) h1 h2
          · exact absurd hd h.head
          · simp only [List.cons.injEq, true_and] at h
            subst h
            have := hn.nonneg
            obtain ⟨b, b1, b2, b3⟩ := ps.1 n hn (by omega)
            obtain ⟨c, c1, c2, c3⟩ := negateIf_spec hW hM0 hM b3 b2 true
            rw [b1]
            simp only [thenB_ok]
            rw [c1]
            exact (fin c _ c2 c3).1 ⟨h1, h2⟩
        · by_cases hn : ∃ n, Numeral rest n ∧ n ≤ M
          · obtain ⟨n, hn, hnM⟩ := hn
            obtain ⟨b, b1, b2, b3⟩ := ps.1 n hn hnM
            obtain ⟨c, c1, c2, c3⟩ := negateIf_spec hW hM0 hM b3 b2 true
            rw [b1]
            simp only [thenB_ok]
            rw [c1]
            exact (fin c _ c2 c3).2 (fun hin => h ⟨-n, Or.inr ⟨hneg, rest, n, rfl, hn, rfl⟩, hin⟩)
          · rw [ps.2 hn]; rfl
    · rw [if_neg hd]
      have ps := toIntegerPositive_spec hW hM0 hM hse hs
      refine ⟨?_, fun h => ?_⟩
      · rintro v (hn | ⟨_, r, n, h, hn, rfl⟩) h1 h2
        · obtain ⟨b, b1, b2, b3⟩ := ps.1 v hn (by omega)
          obtain ⟨c, c1, c2, c3⟩ := negateIf_spec hW hM0 hM b3 b2 false
          rw [b1]
          simp only [thenB_ok]
          rw [c1]
          exact (fin c _ c2 c3).1 ⟨h1, h2⟩
        · exact absurd (by rw [h]; rfl) hd
      · by_cases hn : ∃ n, Numeral s n ∧ n ≤ M
        · obtain ⟨n, hn, hnM⟩ := hn
          obtain ⟨b, b1, b2, b3⟩ := ps.1 n hn hnM
          obtain ⟨c, c1, c2, c3⟩ := negateIf_spec hW hM0 hM b3 b2 false
          rw [b1]
          simp only [thenB_ok]
          rw [c1]
          exact (fin c _ c2 c3).2 (fun hin => h ⟨n, Or.inl hn, hin⟩)
        · rw [ps.2 hn]; rfl
  · rw [if_neg hneg] at hM
    have rl : Rep W minimum := by unfold Rep; omega
    have rh : Rep W maximum := by unfold Rep; omega
    unfold toIntegerImpl
    rw [if_neg hneg]
    have ps := toIntegerPositive_spec hW (by omega) hM hse hs
    have fin : ∀ (c : BInt) (v : Int), c.rng = ⟨0, maximum⟩ → Holds W c v →
        (minimum ≤ v ∧ v ≤ maximum → Yields (checkInRange W (.bounded c) (.bounded (constB minimum))
          (.bounded (constB maximum))) ⟨minimum, maximum⟩ v) ∧
        (¬ (minimum ≤ v ∧ v ≤ maximum) → checkInRange W (.bounded c) (.bounded (constB minimum))
          (.bounded (constB maximum)) = some .exn) := by
      intro c v hcr hc
      have ck := check_const hW hc rl rh hle (by rw [hcr]; simp only; omega)
      refine ⟨fun h => ?_, ck.2⟩
      obtain ⟨e, e1, e2, e3⟩ := ck.1 h
      have : e.rng = ⟨minimum, maximum⟩ := by rw [e2, hcr]; simp only; congr 1 <;> omega
      rw [← this]
      exact yields_of_holds hW e1 e3
    refine ⟨?_, fun h => ?_⟩
    · rintro v (hn | ⟨h, _⟩) h1 h2
      · obtain ⟨b, b1, b2, b3⟩ := ps.1 v hn h2
        rw [b1]
        exact (fin b v b2 b3).1 ⟨h1, h2⟩
      · exact absurd h hneg
    · by_cases hn : ∃ n, Numeral s n ∧ n ≤ maximum
      · obtain ⟨n, hn, hnM⟩ := hn
        obtain ⟨b, b1, b2, b3⟩ := ps.1 n hn hnM
        rw [b1]
        exact (fin b n b2 b3).2 (fun hin => h ⟨n, Or.inl hn, hin⟩)
      · rw [ps.2 hn]; rfl

/-- C15 for `to_integer<T>(str)` with a built-in `T`. -/
theorem C15_to_integer_builtin_exact (hW : 64 ≤ W) {t : CTy} (ht : 1 ≤ t.bits)
    (hM : 10 * maxMagnitude t.lo t.hi + 9 < 2 ^ W) {s : List Int}
    (hs : ∀ c ∈ s, -128 ≤ c ∧ c ≤ 255) :
    (∀ v, Denotes t.lo s v → t.lo ≤ v → v ≤ t.hi → toIntegerBuiltin W t s = some (.ok v)) ∧
    ((¬ ∃ v, Denotes t.lo s v ∧ t.lo ≤ v ∧ v ≤ t.hi) → toIntegerBuiltin W t s = some .exn) := by
  have hle : t.lo ≤ t.hi := by
    have := CTy.wrap_fits ht 0; unfold CTy.Fits at this; omega
  have h := C15_to_integer_exact hW hle hM hs
  unfold toIntegerBuiltin
  refine ⟨fun v h1 h2 h3 => ?_, fun hn => ?_⟩
  · obtain ⟨c, c1, c2, c3, c4⟩ := h.1 v h1 h2 h3
    rw [c1]
    simp only [thenB_ok, c3, Res.ok_bind, Res.pure_def]
    rw [CTy.wrap_of_fits ht ⟨h2, h3⟩]
  · rw [h.2 hn]; rfl

/-- A string denotes at most one number. -/
theorem C15_denotes_unique {minimum : Int} {s : List Int} {v w : Int} (hv : Denotes minimum s v)
    (hw : Denotes minimum s w) : v = w := by
  have num : ∀ {s : List Int} {v w : Int}, Numeral s v → Numeral s w → v = w := by
    rintro s v w ⟨ds, _, _, h1, rfl⟩ ⟨es, _, _, h2, rfl⟩
    rw [h1] at h2
    have : ds = es := List.map_inj_right (f := fun d : Nat => 48 + (d : Int)) (by intro a b h; simpa using h) |>.mp h2
    rw [this]
  rcases hv with hv | ⟨_, r, n, rfl, hn, rfl⟩ <;> rcases hw with hw | ⟨_, r', n', h, hn', rfl⟩
  · exact num hv hw
  · subst h; exact absurd rfl hv.head
  · exact absurd rfl hw.head
  · simp only [List.cons.injEq, true_and] at h
    subst h
    rw [num hn hn']

/-- "-123" -/
example : Denotes (-200) [45, 49, 50, 51] (-123) ∧ 10 * maxMagnitude (-200) 100 + 9 < 2 ^ 128 :=
  ⟨Or.inr ⟨by decide, [49, 50, 51], 123, rfl, ⟨[1, 2, 3], by decide⟩, rfl⟩, by decide +kernel⟩
example : toInteger 128 (-200) 100 [45, 49, 50, 51] = some (.ok ⟨⟨-200, 100⟩, -123⟩) := by decide +kernel
example : toInteger 128 (-200) 100 [49, 48, 49] = some .exn := by decide +kernel
example : toInteger 128 0 100 [45, 49] = some .exn := by decide +kernel
example : toInteger 128 0 100 [48, 48, 48, 48, 55] = some (.ok ⟨⟨0, 100⟩, 7⟩) := by decide +kernel
/-- For a type as wide as the widest built-in type the call does not compile. -/
example : toInteger 64 0 (2 ^ 64 - 1) [49] = none := by decide +kernel

end
end Verif.Bounded
