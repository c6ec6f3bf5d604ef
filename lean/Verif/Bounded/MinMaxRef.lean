import Verif.Bounded.MinMaxProps

/-!
# What the result of `min`, `max` and `extreme` refers to (property C73)

`bounded/minmax.cpp` returns a reference to one of its arguments in some cases and a new value in others. With three or more arguments the result of the first two is the first argument of the next call; if it is a
new value, it is a temporary object of the function that calls, which ends when that function returns.
-/

namespace Verif.Bounded

open Verif

/-! ## Model -/

/-- Where an object is: it is one of the arguments of the whole call, or a temporary object of one of the calls of `extreme_function` with three or more arguments. -/
inductive Place
  | arg (i : Nat)
  | temporary
deriving DecidableEq

/-- An expression that refers to an object: an lvalue or an xvalue, of constant type or not. -/
structure Glvalue (α : Type) where
  val : α
  place : Place
  lvalue : Bool
  const : Bool
deriving DecidableEq

/-- The result of a function: a reference or a value. -/
inductive Result (α : Type)
  | ref (g : Glvalue α)
  | value (v : α)
deriving DecidableEq

/-- `c ? x : y` for two expressions of the same class type, up to `const`: an expression of their common value category, constant if one of them is. If the categories are different it is a value; except that a non-constant
xvalue is converted to a constant lvalue if the implementation lets the reference bind to it (`binds`), as the current standard says. -/
def conditional (binds : Bool) (c : Bool) (x y : Glvalue α) : Result α :=
  let selected := if c then x else y
  if x.lvalue = y.lvalue then .ref { selected with const := x.const || y.const }
  else
    let (l, r) := if x.lvalue then (x, y) else (y, x)
    if binds && l.const && !r.const then .ref { selected with lvalue := true, const := true }
    else .value selected.val

/-- source/bounded/minmax.cpp 56-86: `extreme_value` of two bounded integers. In the last case the result has a type of its own, so that it is a value. -/
def extremeRef2 (W : Nat) (binds : Bool) (s : Cmp) (lhs rhs : Glvalue BInt) : Option (Res (Result BInt)) := do
  let r ← mkInteger W (s.select lhs.val.rng.lo rhs.val.rng.lo) (s.select lhs.val.rng.hi rhs.val.rng.hi)
  if r = lhs.val.rng ∧ lhs.val.rng = rhs.val.rng then
    some (do return conditional binds (← s.apply W rhs.val lhs.val) rhs lhs)
  else if !(rhs.val.rng.overlaps W r) then some (.ok (.ref lhs))
  else if !(lhs.val.rng.overlaps W r) then some (.ok (.ref rhs))
  else some (do
    if ← s.apply W rhs.val lhs.val then return .value (r.unchecked W (← rhs.val.value))
    else return .value (r.unchecked W (← lhs.val.value)))

/-- The first argument of the next call, from the result of the first two (`minmax.cpp` 113-117): a value becomes a temporary object. -/
def Result.operand : Result α → Glvalue α
  | .ref g => g
  | .value v => ⟨v, .temporary, false, false⟩

/-- source/bounded/minmax.cpp 98-120: `extreme_function`. A single argument is forwarded. -/
def extremeRef (W : Nat) (binds : Bool) (s : Cmp) (t : Glvalue BInt) : List (Glvalue BInt) → Option (Res (Result BInt))
  | [] => some (.ok (.ref t))
  | [t2] => extremeRef2 W binds s t t2
  | t2 :: t3 :: ts => do
    match ← extremeRef2 W binds s t t2 with
    | .ok r => extremeRef W binds s r.operand (t3 :: ts)
    | .ub => some .ub
    | .exn => some .exn

/-- The caller uses the result: it is undefined if it refers to a temporary object of a function that has returned. -/
def Result.use : Result α → Res α
  | .ref g => if g.place = .temporary then .ub else .ok g.val
  | .value v => .ok v

/-- `auto x = extreme(compare, t, ts...)` -/
def extremeUse (W : Nat) (binds : Bool) (s : Cmp) (t : Glvalue BInt) (ts : List (Glvalue BInt)) : Option (Res BInt) := do
  match ← extremeRef W binds s t ts with
  | .ok r => some r.use
  | .ub => some .ub
  | .exn => some .exn

/-- A value of some type. -/
structure Typed (τ α : Type) where
  ty : τ
  val : α
deriving DecidableEq

/-- source/bounded/minmax.cpp 31-39 and common_type_and_value_category.cpp 19-42: `extreme_value` of other types. The template arguments are reference types for lvalues only, so that the result is a reference
exactly if both arguments are lvalues and have the common type. -/
def genericRef2 [DecidableEq τ] (common : τ → τ → τ) (convert : τ → Typed τ α → α) (compare : Typed τ α → Typed τ α → Bool) (lhs rhs : Glvalue (Typed τ α)) : Result (Typed τ α) :=
  let selected := if compare rhs.val lhs.val then rhs else lhs
  let target := common lhs.val.ty rhs.val.ty
  if target = lhs.val.ty ∧ target = rhs.val.ty ∧ lhs.lvalue ∧ rhs.lvalue then .ref { selected with const := lhs.const || rhs.const }
  else .value ⟨target, convert target selected.val⟩

/-- source/bounded/minmax.cpp 98-120 with `genericRef2` -/
def genericRef [DecidableEq τ] (common : τ → τ → τ) (convert : τ → Typed τ α → α) (compare : Typed τ α → Typed τ α → Bool) (t : Glvalue (Typed τ α)) : List (Glvalue (Typed τ α)) → Result (Typed τ α)
  | [] => .ref t
  | [t2] => genericRef2 common convert compare t t2
  | t2 :: t3 :: ts => genericRef common convert compare (genericRef2 common convert compare t t2).operand (t3 :: ts)

/-! ## Specification -/

/-- The arguments of a call: object `i` is argument `i`. -/
def Arguments (ts : List (Glvalue α)) : Prop := ∀ i, ∀ h : i < ts.length, ts[i].place = .arg i

/-- The result does not refer to an object that has ended. -/
def Result.Alive : Result α → Prop
  | .ref g => ∃ i, g.place = .arg i
  | .value _ => True

/-- `g` refers to the first of those objects that none of them is better than; it is constant if one of them is. -/
def FirstBest (better : α → α → Prop) (ts : List (Glvalue α)) (g : Glvalue α) : Prop :=
  ∃ pre best post, ts = pre ++ best :: post ∧ g = { best with const := ts.any Glvalue.const } ∧ (∀ u ∈ pre, better best.val u.val) ∧ ∀ u ∈ post, ¬ better u.val best.val

/-- `v` is before `w` in the order of the comparison function. -/
def Cmp.Beats (s : Cmp) (v w : Int) : Prop :=
  match s with
  | .less => v < w
  | .greater => w < v

/-! ## Proofs -/

section
variable {better : α → α → Prop}

theorem firstBest_one (t : Glvalue α) : FirstBest better [t] t := ⟨[], t, [], rfl, by simp, by simp, by simp⟩

theorem FirstBest.replace {ts : List (Glvalue α)} {g t : Glvalue α} (ntrans : ∀ a b c : α, ¬ better a b → ¬ better b c → ¬ better a c) (asymm : ∀ a b : α, better a b → ¬ better b a)
    (h : FirstBest better ts g) (hb : better t.val g.val) : FirstBest better (ts ++ [t]) { t with const := t.const || g.const } := by
  obtain ⟨pre, best, post, rfl, rfl, h1, h2⟩ := h
  refine ⟨_, t, [], rfl, by simp [Bool.or_comm, Bool.or_left_comm, Bool.or_assoc], fun u hu => ?_, by simp⟩
  by_contra hc
  have hb : Bounded.FirstBest better [t] t ∧ better t.val best.val := ⟨firstBest_one t, hb⟩
  simp only [List.mem_append, List.mem_cons] at hu
  rcases hu with hu | rfl | hu
  · exact ntrans _ _ _ hc (asymm _ _ (h1 u hu)) hb.2
  · exact hc hb.2
  · exact ntrans _ _ _ hc (h2 u hu) hb.2

theorem FirstBest.same {ts : List (Glvalue α)} {g t : Glvalue α} (h : FirstBest better ts g) (hb : ¬ better t.val g.val) : FirstBest better (ts ++ [t]) { g with const := t.const || g.const } := by
  obtain ⟨pre, best, post, rfl, rfl, h1, h2⟩ := h
  refine ⟨pre, best, post ++ [t], by simp, by simp [Bool.or_comm, Bool.or_left_comm, Bool.or_assoc], h1, fun u hu => ?_⟩
  rw [List.mem_append, List.mem_singleton] at hu
  rcases hu with hu | rfl
  · exact h2 u hu
  · exact hb

/-- The best of the arguments is one of them. -/
theorem FirstBest.mem {ts : List (Glvalue α)} {g : Glvalue α} (h : FirstBest better ts g) : ∃ t ∈ ts, t.val = g.val ∧ t.place = g.place ∧ t.lvalue = g.lvalue := by
  obtain ⟨pre, best, post, rfl, rfl, h1, h2⟩ := h
  exact ⟨best, by simp, rfl, rfl, rfl⟩

end

section
variable {W : Nat} {binds : Bool} {s : Cmp}

/-- The value that a result has if it does not matter where it is. -/
def Result.val : Result α → α
  | .ref g => g.val
  | .value v => v

theorem operand_val (r : Result α) : r.operand.val = r.val := by cases r <;> rfl

theorem conditional_val (c : Bool) (x y : Glvalue α) : (conditional binds c x y).val = if c then x.val else y.val := by
  obtain ⟨xv, xp, xl, xc⟩ := x
  obtain ⟨yv, yp, yl, yc⟩ := y
  cases c <;> cases xl <;> cases yl <;> cases xc <;> cases yc <;> cases binds <;> rfl

/-- One step has the value that C14 is about. -/
theorem extremeRef2_val (lhs rhs : Glvalue BInt) :
    (∀ r, extremeRef2 W binds s lhs rhs = some (.ok r) → extreme2 W s lhs.val rhs.val = some (.ok r.val)) ∧
    (extremeRef2 W binds s lhs rhs = some .ub → extreme2 W s lhs.val rhs.val = some .ub) ∧
    (extremeRef2 W binds s lhs rhs = some .exn → extreme2 W s lhs.val rhs.val = some .exn) ∧
    (extremeRef2 W binds s lhs rhs = none → extreme2 W s lhs.val rhs.val = none) := by
  unfold extremeRef2 extreme2
  cases mkInteger W (s.select lhs.val.rng.lo rhs.val.rng.lo) (s.select lhs.val.rng.hi rhs.val.rng.hi) with
  | none => simp
  | some q =>
    simp only [Option.bind_eq_bind, Option.bind_some]
    split
    · cases s.apply W rhs.val lhs.val <;> simp [conditional_val]
    · split
      · simp [Result.val]
      · split
        · simp [Result.val]
        · cases s.apply W rhs.val lhs.val with
          | ok c =>
            cases c
            · simp only [Res.ok_bind, Bool.false_eq_true, if_false]
              cases lhs.val.value <;> simp [Result.val]
            · simp only [Res.ok_bind, if_true]
              cases rhs.val.value <;> simp [Result.val]
          | ub => simp
          | exn => simp

theorem extremeRef_val : ∀ (ts : List (Glvalue BInt)) (t : Glvalue BInt) {c : BInt}, extreme W s t.val (ts.map Glvalue.val) = some (.ok c) →
    ∃ r, extremeRef W binds s t ts = some (.ok r) ∧ r.val = c
  | [], t, c, h => by
    simp only [List.map_nil, extreme, Option.some.injEq, Res.ok.injEq] at h
    exact ⟨_, rfl, h⟩
  | [t2], t, c, h => by
    simp only [List.map_cons, List.map_nil, extreme, Option.bind_eq_bind] at h
    obtain ⟨h1, h2, h3, h4⟩ := extremeRef2_val (W := W) (binds := binds) (s := s) t t2
    rw [extremeRef]
    revert h1 h2 h3 h4
    cases extremeRef2 W binds s t t2 with
    | none => intro _ _ _ h4; rw [h4 rfl] at h; simp at h
    | some r =>
      cases r with
      | ok r => intro h1 _ _ _; rw [h1 _ rfl] at h; simp only [Option.bind_some, Option.some.injEq, Res.ok.injEq] at h; exact ⟨r, rfl, h⟩
      | ub => intro _ h2 _ _; rw [h2 rfl] at h; simp at h
      | exn => intro _ _ h3 _; rw [h3 rfl] at h; simp at h
  | t2 :: t3 :: ts, t, c, h => by
    rw [List.map_cons] at h
    unfold extreme at h
    simp only [Option.bind_eq_bind] at h
    obtain ⟨h1, h2, h3, h4⟩ := extremeRef2_val (W := W) (binds := binds) (s := s) t t2
    rw [extremeRef]
    revert h1 h2 h3 h4
    cases extremeRef2 W binds s t t2 with
    | none => intro _ _ _ h4; rw [h4 rfl] at h; simp at h
    | some r =>
      cases r with
      | ok r =>
        intro h1 _ _ _
        rw [h1 _ rfl] at h
        simp only [Option.bind_some] at h
        rw [← operand_val] at h
        exact extremeRef_val (t3 :: ts) r.operand h
      | ub => intro _ h2 _ _; rw [h2 rfl] at h; simp at h
      | exn => intro _ _ h3 _; rw [h3 rfl] at h; simp at h

/-- **C73**: if the result is an object that still exists, then it is the least (greatest) value, in the range that C14 says. -/
theorem C73_value (hW : 64 ≤ W) {t : Glvalue BInt} {ts : List (Glvalue BInt)} {x : Int} {xs : List Int} (ht : Holds W t.val x) (hts : List.Forall₂ (Holds W) (ts.map Glvalue.val) xs) :
    ∃ r, extremeRef W binds s t ts = some (.ok r) ∧ Holds W r.val (xs.foldl s.op x) ∧ (extremeUse W binds s t ts = some (.ok r.val) ↔ r.Alive) := by
  obtain ⟨c, h1, h2, -⟩ := extreme_value hW s ht hts
  obtain ⟨r, h3, rfl⟩ := extremeRef_val (binds := binds) ts t h1
  refine ⟨r, h3, h2, ?_⟩
  simp only [extremeUse, h3, Option.bind_eq_bind, Option.bind_some, Option.some.injEq]
  cases r with
  | value v => simp [Result.use, Result.val, Result.Alive]
  | ref g =>
    obtain ⟨v, p, l, k⟩ := g
    cases p <;> simp [Result.use, Result.val, Result.Alive]

theorem conditional_ref {c : Bool} {x y g : Glvalue α} (h : conditional binds c x y = .ref g) : (g.place = x.place ∧ c = true) ∨ (g.place = y.place ∧ c = false) := by
  obtain ⟨xv, xp, xl, xc⟩ := x
  obtain ⟨yv, yp, yl, yc⟩ := y
  revert h
  cases c <;> cases xl <;> cases yl <;> cases xc <;> cases yc <;> cases binds <;> simp [conditional] <;> rintro rfl <;> rfl

/-- One step gives a value, or refers to one of its arguments. -/
theorem extremeRef2_place {lhs rhs g : Glvalue BInt} (h : extremeRef2 W binds s lhs rhs = some (.ok (.ref g))) : g.place = lhs.place ∨ g.place = rhs.place := by
  unfold extremeRef2 at h
  revert h
  cases mkInteger W (s.select lhs.val.rng.lo rhs.val.rng.lo) (s.select lhs.val.rng.hi rhs.val.rng.hi) with
  | none => simp
  | some q =>
    simp only [Option.bind_eq_bind, Option.bind_some]
    split
    · cases s.apply W rhs.val lhs.val <;> simp
      intro h
      rcases conditional_ref h with h | h
      · exact .inr h.1
      · exact .inl h.1
    · split
      · simp only [Option.some.injEq, Res.ok.injEq, Result.ref.injEq]; rintro rfl; exact .inl rfl
      · split
        · simp only [Option.some.injEq, Res.ok.injEq, Result.ref.injEq]; rintro rfl; exact .inr rfl
        · cases s.apply W rhs.val lhs.val with
          | ok c =>
            cases c
            · simp only [Res.ok_bind, Bool.false_eq_true, if_false]
              cases lhs.val.value <;> simp
            · simp only [Res.ok_bind, if_true]
              cases rhs.val.value <;> simp
          | ub => simp
          | exn => simp

/-- **C73** for one or two arguments: the result never refers to an object that has ended. Missing: three or more arguments of different types (`C73_lvalues_violated`, `C73_sizes_violated`). -/
theorem C73_two_partial {t t2 : Glvalue BInt} (h : Arguments [t, t2]) :
    (extremeRef W binds s t [] = some (.ok (.ref t)) ∧ t.place = .arg 0) ∧
    ∀ r, extremeRef W binds s t [t2] = some (.ok r) → r.Alive := by
  have h0 : t.place = .arg 0 := h 0 (by simp)
  have h1 : t2.place = .arg 1 := h 1 (by simp)
  refine ⟨⟨rfl, h0⟩, fun r hr => ?_⟩
  rw [extremeRef] at hr
  cases r with
  | value v => trivial
  | ref g =>
    rcases extremeRef2_place hr with e | e
    · exact ⟨0, e.trans h0⟩
    · exact ⟨1, e.trans h1⟩

/-- One step for two integers of the same type. -/
theorem extremeRef2_same (hW : 64 ≤ W) {lhs rhs : Glvalue BInt} {x y : Int} (hl : Holds W lhs.val x) (hr : Holds W rhs.val y) (h : rhs.val.rng = lhs.val.rng) :
    extremeRef2 W binds s lhs rhs = some (.ok (conditional binds (match s with | .less => decide (y < x) | .greater => decide (y > x)) rhs lhs)) := by
  have e : ∀ v, s.select v v = v := fun v => by cases s <;> simp [Cmp.select]
  have hmk : mkInteger W lhs.val.rng.lo lhs.val.rng.hi = some lhs.val.rng := by
    rw [mkInteger_eq hW, if_pos]
    exact (wf_iff hW _).mp hl.1
  unfold extremeRef2
  rw [h, e, e, hmk]
  simp only [Option.bind_eq_bind, Option.bind_some, and_self, if_true, apply_eq hW s hl hr, Res.ok_bind, Res.pure_def]
  cases s <;> rfl

theorem conditional_same {c : Bool} {x y : Glvalue α} (h : x.lvalue = y.lvalue) :
    conditional binds c x y = .ref (if c then { x with const := x.const || y.const } else { y with const := x.const || y.const }) := by
  simp only [conditional, if_pos h]
  cases c <;> rfl

/-- **C73** for two arguments of the same type of which one is an lvalue and the other is not: the result is the value that is least (greatest), the first argument if they
are equal. It is a copy, except if the lvalue is constant, the rvalue is not and the compiler lets the reference bind (`binds`): then it is a constant reference to
that argument. -/
theorem C73_mixed (hW : 64 ≤ W) {lhs rhs : Glvalue BInt} {x y : Int} (hl : Holds W lhs.val x) (hr : Holds W rhs.val y) (h : rhs.val.rng = lhs.val.rng) {first : Bool}
    (h1 : lhs.lvalue = first) (h2 : rhs.lvalue = !first) :
    extremeRef2 W binds s lhs rhs = some (.ok (
      let best := if (match s with | .less => decide (y < x) | .greater => decide (y > x)) = true then rhs else lhs
      let lvalue := if first then lhs else rhs
      let rvalue := if first then rhs else lhs
      if binds = true ∧ lvalue.const = true ∧ rvalue.const = false then .ref ⟨best.val, best.place, true, true⟩ else .value best.val)) := by
  rw [extremeRef2_same hW hl hr h]
  obtain ⟨lv, lp, ll, lc⟩ := lhs
  obtain ⟨rv, rp, rl, rc⟩ := rhs
  simp only at h1 h2
  subst h1 h2
  cases s
  all_goals
    simp only [conditional]
    by_cases hc : y < x <;> by_cases hd : x < y <;> cases ll <;> cases lc <;> cases rc <;> cases binds <;> simp [hc, hd]

theorem beats_iff (s : Cmp) (x y : Int) : (match s with | .less => decide (y < x) | .greater => decide (y > x)) = true ↔ s.Beats y x := by
  cases s <;> simp [Cmp.Beats]

/-- **C73** for arguments of the same type that are all lvalues, or all rvalues: the result refers to the first of the least (greatest) arguments, and is constant if one of the arguments is. -/
theorem C73_same_type (hW : 64 ≤ W) {t : Glvalue BInt} {ts : List (Glvalue BInt)} {num : BInt → Int} {r : Rng} {lv : Bool} (hts : ∀ u ∈ t :: ts, Holds W u.val (num u.val))
    (hrng : ∀ u ∈ t :: ts, u.val.rng = r) (hlv : ∀ u ∈ t :: ts, u.lvalue = lv) :
    ∃ g, extremeRef W binds s t ts = some (.ok (.ref g)) ∧ FirstBest (fun a b => s.Beats (num a) (num b)) (t :: ts) g := by
  have key : ∀ (ts pre : List (Glvalue BInt)) (g : Glvalue BInt), FirstBest (fun a b => s.Beats (num a) (num b)) pre g → (∀ u ∈ pre ++ ts, Holds W u.val (num u.val)) →
      (∀ u ∈ pre ++ ts, u.val.rng = r) → (∀ u ∈ pre ++ ts, u.lvalue = lv) →
      ∃ g', extremeRef W binds s g ts = some (.ok (.ref g')) ∧ FirstBest (fun a b => s.Beats (num a) (num b)) (pre ++ ts) g' := by
    intro ts
    induction ts with
    | nil => intro pre g h _ _ _; exact ⟨g, rfl, by simpa using h⟩
    | cons u us ih =>
      intro pre g h h1 h2 h3
      obtain ⟨b, hb, e1, e2, e3⟩ := h.mem
      have hu : u ∈ pre ++ u :: us := by simp
      have hb' : b ∈ pre ++ u :: us := by simp [hb]
      have hg : Holds W g.val (num g.val) := e1 ▸ h1 b hb'
      have step := extremeRef2_same (binds := binds) (s := s) hW hg (h1 u hu) (by rw [h2 u hu, ← e1, h2 b hb'])
      rw [conditional_same (by rw [h3 u hu, ← e3, h3 b hb'])] at step
      have next : FirstBest (fun a b => s.Beats (num a) (num b)) (pre ++ [u])
          (if (match s with | .less => decide (num u.val < num g.val) | .greater => decide (num u.val > num g.val)) then { u with const := u.const || g.const } else { g with const := u.const || g.const }) := by
        by_cases hc : s.Beats (num u.val) (num g.val)
        · rw [if_pos ((beats_iff s _ _).2 hc)]
          refine h.replace (fun a b c => ?_) (fun a b => ?_) hc
          · cases s <;> simp only [Cmp.Beats] <;> omega
          · cases s <;> simp only [Cmp.Beats] <;> omega
        · rw [if_neg (fun hh => hc ((beats_iff s _ _).1 hh))]
          exact h.same hc
      cases us with
      | nil =>
        rw [extremeRef]
        exact ⟨_, step, next⟩
      | cons v vs =>
        obtain ⟨g', h4, h5⟩ := ih (pre ++ [u]) _ next (by simpa using h1) (by simpa using h2) (by simpa using h3)
        refine ⟨g', ?_, by simpa using h5⟩
        rw [extremeRef, step]
        exact h4
  obtain ⟨g, h1, h2⟩ := key ts [t] t (firstBest_one t) (by simpa using hts) (by simpa using hrng) (by simpa using hlv)
  exact ⟨g, h1, by simpa using h2⟩

end

section
variable [DecidableEq τ] {common : τ → τ → τ} {convert : τ → Typed τ α → α} {compare : Typed τ α → Typed τ α → Bool}

/-- **C73** for other types: whatever the types and value categories of two or more arguments are, the result never refers to an object that has ended, and if it refers to an argument then that is an lvalue. -/
theorem C73_generic {t t2 : Glvalue (Typed τ α)} {ts : List (Glvalue (Typed τ α))} (h : Arguments (t :: t2 :: ts)) :
    (genericRef common convert compare t (t2 :: ts)).Alive ∧ ∀ g, genericRef common convert compare t (t2 :: ts) = .ref g → g.lvalue = true := by
  -- objects that are lvalues are arguments
  have key : ∀ (ts : List (Glvalue (Typed τ α))) (t t2 : Glvalue (Typed τ α)), (∀ u ∈ t :: t2 :: ts, u.lvalue = true → ∃ i, u.place = .arg i) →
      (genericRef common convert compare t (t2 :: ts)).Alive ∧ ∀ g, genericRef common convert compare t (t2 :: ts) = .ref g → g.lvalue = true := by
    have step : ∀ (t t2 : Glvalue (Typed τ α)), (∀ u ∈ [t, t2], u.lvalue = true → ∃ i, u.place = .arg i) →
        (genericRef2 common convert compare t t2).Alive ∧ ∀ g, genericRef2 common convert compare t t2 = .ref g → g.lvalue = true := by
      intro t t2 h
      unfold genericRef2
      by_cases hc : common t.val.ty t2.val.ty = t.val.ty ∧ common t.val.ty t2.val.ty = t2.val.ty ∧ t.lvalue = true ∧ t2.lvalue = true
      · simp only [if_pos hc, Result.Alive, Result.ref.injEq]
        obtain ⟨-, -, h1, h2⟩ := hc
        split
        · exact ⟨h t2 (by simp) h2, by rintro g rfl; exact h2⟩
        · exact ⟨h t (by simp) h1, by rintro g rfl; exact h1⟩
      · simp only [if_neg hc, Result.Alive, reduceCtorEq, false_implies, implies_true, and_self]
    intro ts
    induction ts with
    | nil => intro t t2 h; exact step t t2 h
    | cons t3 ts ih =>
      intro t t2 h
      rw [genericRef]
      refine ih _ t3 fun u hu hl => ?_
      rw [List.mem_cons] at hu
      rcases hu with rfl | hu
      · obtain ⟨h1, h2⟩ := step t t2 fun u hu => h u (by simp at hu ⊢; tauto)
        revert h1 h2 hl
        cases genericRef2 common convert compare t t2 with
        | ref g => intro hl h1 _; exact h1
        | value v => intro hl; simp [Result.operand] at hl
      · exact h u (by simp at hu ⊢; tauto) hl
  refine key ts t t2 fun u hu _ => ?_
  obtain ⟨i, hi, rfl⟩ := List.getElem_of_mem hu
  exact ⟨i, h i hi⟩

/-- **C73** for other types: of lvalues of the same type, the result is the first that none is better than, for every strict weak order. -/
theorem C73_generic_lvalues {t : Glvalue (Typed τ α)} {ts : List (Glvalue (Typed τ α))} {ty : τ} (hself : common ty ty = ty)
    (asymm : ∀ a b, compare a b = true → ¬ compare b a = true) (ntrans : ∀ a b c, ¬ compare a b = true → ¬ compare b c = true → ¬ compare a c = true)
    (hty : ∀ u ∈ t :: ts, u.val.ty = ty) (hlv : ∀ u ∈ t :: ts, u.lvalue = true) :
    ∃ g, genericRef common convert compare t ts = .ref g ∧ FirstBest (fun a b => compare a b = true) (t :: ts) g := by
  have key : ∀ (ts pre : List (Glvalue (Typed τ α))) (g : Glvalue (Typed τ α)), FirstBest (fun a b => compare a b = true) pre g →
      (∀ u ∈ pre ++ ts, u.val.ty = ty) → (∀ u ∈ pre ++ ts, u.lvalue = true) →
      ∃ g', genericRef common convert compare g ts = .ref g' ∧ FirstBest (fun a b => compare a b = true) (pre ++ ts) g' := by
    intro ts
    induction ts with
    | nil => intro pre g h _ _; exact ⟨g, rfl, by simpa using h⟩
    | cons u us ih =>
      intro pre g h h2 h3
      obtain ⟨b, hb, e1, e2, e3⟩ := h.mem
      have hu : u ∈ pre ++ u :: us := by simp
      have hb' : b ∈ pre ++ u :: us := by simp [hb]
      have hg : g.val.ty = ty := e1 ▸ h2 b hb'
      have hgl : g.lvalue = true := e3 ▸ h3 b hb'
      have step : genericRef2 common convert compare g u = .ref (if compare u.val g.val then { u with const := u.const || g.const } else { g with const := u.const || g.const }) := by
        unfold genericRef2
        rw [if_pos ⟨by rw [hg, h2 u hu, hself], by rw [hg, h2 u hu, hself], hgl, h3 u hu⟩, Bool.or_comm g.const]
        split <;> rfl
      have next : FirstBest (fun a b => compare a b = true) (pre ++ [u]) (if compare u.val g.val then { u with const := u.const || g.const } else { g with const := u.const || g.const }) := by
        split
        · exact h.replace ntrans asymm ‹_›
        · exact h.same ‹_›
      cases us with
      | nil =>
        rw [genericRef]
        exact ⟨_, step, next⟩
      | cons v vs =>
        obtain ⟨g', h4, h5⟩ := ih (pre ++ [u]) _ next (by simpa using h2) (by simpa using h3)
        refine ⟨g', ?_, by simpa using h5⟩
        rw [genericRef, step]
        exact h4
  obtain ⟨g, h1, h2⟩ := key ts [t] t (firstBest_one t) (by simpa using hty) (by simpa using hlv)
  exact ⟨g, h1, by simpa using h2⟩

end

/-! ### The result can refer to an object that has ended -/

/-- **C73** fails for three lvalues: the least of the first two, of types `integer<0, 10>` and `integer<0, 20>`, is a temporary object, and the third, of type `integer<50, 60>`, cannot be the least, so that a reference to
the temporary object is returned. This does not depend on the values. -/
theorem C73_lvalues_violated (binds : Bool) :
    extremeUse 64 binds .less ⟨⟨⟨0, 10⟩, 5⟩, .arg 0, true, false⟩ [⟨⟨⟨0, 20⟩, 7⟩, .arg 1, true, false⟩, ⟨⟨⟨50, 60⟩, 55⟩, .arg 2, true, false⟩] = some .ub := by
  cases binds <;> decide +kernel

/-- **C14** fails for three arguments of different types, for the same reason: they have the values 5, 7 and 55, but using the result is undefined. -/
theorem C14_three_violated :
    Holds 64 ⟨⟨0, 10⟩, 5⟩ 5 ∧ Holds 64 ⟨⟨0, 20⟩, 7⟩ 7 ∧ Holds 64 ⟨⟨50, 60⟩, 55⟩ 55 ∧
    ∀ binds, extremeUse 64 binds .less ⟨⟨⟨0, 10⟩, 5⟩, .arg 0, true, false⟩ [⟨⟨⟨0, 20⟩, 7⟩, .arg 1, true, false⟩, ⟨⟨⟨50, 60⟩, 55⟩, .arg 2, true, false⟩] = some .ub := by
  refine ⟨?_, ?_, ?_, C73_lvalues_violated⟩ <;> unfold Holds <;> decide +kernel

/-- **C73** fails for the sizes of three ranges, where the greatest size of the first is greater than that of the other two, as `zip` uses it (`algorithms/zip.cpp` 160): the result refers to an object that has ended unless the third
range is shorter than both others. -/
theorem C73_sizes_violated {W : Nat} (hW : 64 ≤ W) (binds : Bool) {a b x y z : Int} (hb : 0 < b) (hab : b < a) {p q r : BInt}
    (hp : Holds W p x) (hq : Holds W q y) (hr : Holds W r z) (ep : p.rng = ⟨0, a⟩) (eq : q.rng = ⟨0, b⟩) (er : r.rng = ⟨0, b⟩) :
    extremeUse W binds .less ⟨p, .arg 0, false, false⟩ [⟨q, .arg 1, false, false⟩, ⟨r, .arg 2, false, false⟩] = if z < min x y then some (.ok r) else some .ub := by
  have wq := (wf_iff hW _).mp hq.1
  have mx := value_mem hp.2 ((wf_iff hW _).mp hp.1).1
  have my := value_mem hq.2 wq.1
  unfold Rng.Mem at mx my
  rw [ep] at mx
  rw [eq] at my wq
  have hmk : mkInteger W 0 b = some ⟨0, b⟩ := by rw [mkInteger_eq hW, if_pos wq]
  have hwf : (⟨0, b⟩ : Rng).Wf W := eq ▸ hq.1
  have hm : (⟨0, b⟩ : Rng).Mem (min x y) := by unfold Rng.Mem; dsimp only at *; omega
  have ap := apply_eq hW .less hp hq
  -- the first two
  have h1 : extremeRef2 W binds .less ⟨p, .arg 0, false, false⟩ ⟨q, .arg 1, false, false⟩ = some (.ok (.value ((⟨0, b⟩ : Rng).unchecked W (min x y)))) := by
    unfold extremeRef2
    simp only [ep, eq, Cmp.select, if_pos hab, lt_self_iff_false, if_false, hmk, Option.bind_eq_bind, Option.bind_some, Rng.mk.injEq, true_and]
    rw [if_neg (by omega), overlaps_eq hW hwf hwf, overlaps_eq hW (ep ▸ hp.1) hwf]
    dsimp only
    rw [decide_eq_true (show 0 ≤ b ∧ 0 ≤ b by omega), decide_eq_true (show 0 ≤ b ∧ 0 ≤ a by omega)]
    simp only [Bool.not_true, Bool.false_eq_true, if_false, ap, Res.ok_bind, hp.2, hq.2, Res.pure_def, decide_eq_true_eq]
    split
    · rw [min_eq_right (by omega)]
    · rw [min_eq_left (by omega)]
  have hh : Holds W ((⟨0, b⟩ : Rng).unchecked W (min x y)) (min x y) := ⟨hwf, unchecked_value hW hwf hm rfl⟩
  have h2 := extremeRef2_same (binds := binds) (s := .less) (lhs := ⟨(⟨0, b⟩ : Rng).unchecked W (min x y), .temporary, false, false⟩) (rhs := ⟨r, .arg 2, false, false⟩) hW hh hr er
  rw [conditional_same (by rfl)] at h2
  simp only [extremeUse, extremeRef, h1, Result.operand, h2, Option.bind_eq_bind, Option.bind_some, decide_eq_true_eq]
  split <;> simp [Result.use]

/-- **C73** fails for two rvalues of the same type of bounded integers: the result refers to one of them, whereas it is a value for all other types, so that a reference bound to it refers to an object that ends with the expression. -/
theorem C73_rvalues_violated :
    extremeRef 64 false .less ⟨⟨⟨0, 10⟩, 5⟩, .arg 0, false, false⟩ [⟨⟨⟨0, 10⟩, 7⟩, .arg 1, false, false⟩] = some (.ok (.ref ⟨⟨⟨0, 10⟩, 5⟩, .arg 0, false, false⟩)) ∧
    ∀ x y : Int, genericRef (fun _ _ : Unit => ()) (fun _ v => v.val) (fun a b => decide (a.val < b.val)) ⟨⟨(), x⟩, .arg 0, false, false⟩ [⟨⟨(), y⟩, .arg 1, false, false⟩] = .value ⟨(), min x y⟩ := by
  refine ⟨by decide +kernel, fun x y => ?_⟩
  simp only [genericRef, genericRef2, and_true, Bool.false_eq_true, and_false, if_false, Result.value.injEq, Typed.mk.injEq, true_and, decide_eq_true_eq]
  split <;> simp <;> omega

/-- The hypotheses of `C73_value` and `C73_two_partial` can be met, with arguments of different types. -/
example : Arguments [(⟨⟨⟨0, 10⟩, 5⟩, .arg 0, true, false⟩ : Glvalue BInt), ⟨⟨⟨3, 20⟩, 4⟩, .arg 1, true, true⟩] ∧
    extremeUse 64 true .less ⟨⟨⟨0, 10⟩, 5⟩, .arg 0, true, false⟩ [⟨⟨⟨3, 20⟩, 4⟩, .arg 1, true, true⟩] = some (.ok ⟨⟨0, 10⟩, 4⟩) := by
  refine ⟨fun i hi => ?_, by decide +kernel⟩
  match i, hi with
  | 0, _ => rfl
  | 1, _ => rfl

/-- Lvalues of the same type with a tie: the first of the two. -/
example : extremeRef 64 true .less ⟨⟨⟨0, 10⟩, 5⟩, .arg 0, true, false⟩ [⟨⟨⟨0, 10⟩, 4⟩, .arg 1, true, true⟩, ⟨⟨⟨0, 10⟩, 4⟩, .arg 2, true, false⟩] = some (.ok (.ref ⟨⟨⟨0, 10⟩, 4⟩, .arg 1, true, true⟩)) := by
  decide +kernel

/-- The hypotheses of `C73_sizes_violated` can be met: three ranges of two elements. -/
example : Holds 64 ⟨⟨0, 9⟩, 2⟩ 2 ∧ Holds 64 ⟨⟨0, 8⟩, 2⟩ 2 := by unfold Holds; decide +kernel

end Verif.Bounded
