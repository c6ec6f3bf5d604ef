import Verif.Bounded.Assign

/-!
# Properties C11 (whole expressions) and C12 (assignment histories)
-/

namespace Verif.Bounded

open Verif

variable {W : Nat}

/-! ## C12 -/

/-- C12: assignment from any bounded integer type that compiles stores exactly the
assigned value when it is in the target range, and is undefined otherwise; the type of
the target is unchanged. -/
theorem C12_assign_exact (hW : 64 ≤ W) {x other : BInt} {v y : Int} (hx : Holds W x v)
    (ho : Holds W other y) (hc : assign W x other ≠ none) :
    (x.rng.lo ≤ y ∧ y ≤ x.rng.hi → Yields (assign W x other) x.rng y) ∧
    (¬ (x.rng.lo ≤ y ∧ y ≤ x.rng.hi) → assign W x other = some .ub) := by
  have h := assign_spec hW hx ho hc
  refine ⟨fun hi => ?_, h.2⟩
  obtain ⟨c, h1, h2, h3⟩ := h.1 hi
  exact yields_of hW ⟨c, h1, h2, h3.2⟩ hx.1

/-- C12: assignment is rejected at compile time exactly when no value could be stored. -/
theorem C12_assign_rejected_iff (hW : 64 ≤ W) {x other : BInt} {v y : Int} (hx : Holds W x v)
    (ho : Holds W other y) :
    assign W x other = none ↔ ¬ ∃ z, x.rng.Mem z ∧ other.rng.Mem z := by
  have wx := ((wf_iff hW _).mp hx.1).1
  have wo := ((wf_iff hW _).mp ho.1).1
  have mo := value_mem ho.2 wo
  unfold Rng.Mem at *
  constructor
  · intro h
    rintro ⟨z, h1, h2⟩
    unfold assign at h
    split at h
    · simp at h
    · rw [overlaps_eq hW ho.1 hx.1, if_neg (by simp; omega)] at h
      split at h
      · simp at h
      · have rx := hx.1.rep hW
        have sp := assumeInRange_spec hW ho rx.1 rx.2 (by omega) wx
        by_cases hin : x.rng.lo ≤ y ∧ y ≤ x.rng.hi
        · obtain ⟨c, e1, e2, e3⟩ := sp.1 hin
          rw [e1] at h
          simp only [Option.bind_eq_bind, Option.bind_some] at h
          split at h
          · simp at h
          · obtain ⟨d, d1, _⟩ := convert_holds hW hx.1 e3 (by rw [e2]; simp only; omega)
            rw [d1] at h; simp at h
        · rw [sp.2 hin] at h; simp at h
  · intro h
    have hno : ¬ (other.rng.lo ≤ x.rng.hi ∧ x.rng.lo ≤ other.rng.hi) := fun hh =>
      h ⟨max x.rng.lo other.rng.lo, by omega, by omega⟩
    unfold assign
    rw [if_neg (by intro e; rw [e] at hno; omega), overlaps_eq hW ho.1 hx.1, if_pos (by simp; omega)]

/-- Statements over mathematical integers. -/
inductive MStep where
  | assign (y : Int)
  | add (y : Int)
  | sub (y : Int)
  | mul (y : Int)
  | div (y : Int)
  | inc
  | dec

/-- The mathematical result of a statement; nothing for a division by zero. -/
def MStep.result (v : Int) : MStep → Option Int
  | .assign y => some y
  | .add y => some (v + y)
  | .sub y => some (v - y)
  | .mul y => some (v * y)
  | .div y => if y = 0 then none else some (v.tdiv y)
  | .inc => some (v + 1)
  | .dec => some (v - 1)

/-- Specification of a history on a variable with values in `[lo, hi]`: each result
must be in range. -/
def specRun (lo hi v : Int) : List MStep → Option Int
  | [] => some v
  | s :: ss =>
    match s.result v with
    | none => none
    | some w => if lo ≤ w ∧ w ≤ hi then specRun lo hi w ss else none

/-- The operands of the statement hold the operands of the mathematical statement. -/
inductive StepHolds (W : Nat) : Step → MStep → Prop where
  | assign {b y} : Holds W b y → StepHolds W (.assign b) (.assign y)
  | add {b y} : Holds W b y → StepHolds W (.add b) (.add y)
  | sub {b y} : Holds W b y → StepHolds W (.sub b) (.sub y)
  | mul {b y} : Holds W b y → StepHolds W (.mul b) (.mul y)
  | div {b y} : Holds W b y → StepHolds W (.div b) (.div y)
  | inc : StepHolds W .inc .inc
  | dec : StepHolds W .dec .dec

theorem compound_spec (hW : 64 ≤ W) {op : Nat → BInt → BInt → Option (Res BInt)} {x y c : BInt} {v w : Int}
    (hx : Holds W x v) (h1 : op W x y = some (.ok c)) (h2 : Holds W c w)
    (hc : compound W op x y ≠ none) :
    (x.rng.lo ≤ w ∧ w ≤ x.rng.hi → ∃ c, compound W op x y = some (.ok c) ∧ c.rng = x.rng ∧ Holds W c w) ∧
    (¬ (x.rng.lo ≤ w ∧ w ≤ x.rng.hi) → compound W op x y = some .ub) := by
  have e : compound W op x y = assign W x c := by unfold compound; rw [h1]; rfl
  rw [e] at hc ⊢
  exact assign_spec hW hx h2 hc

theorem op_ne_none {op : Nat → BInt → BInt → Option (Res BInt)} {x y : BInt}
    (hc : compound W op x y ≠ none) : op W x y ≠ none := by
  intro h
  exact hc (by unfold compound; rw [h]; rfl)

theorem rep_one (hW : 64 ≤ W) : Rep W 1 := by
  have ⟨p1, p2⟩ := pow_facts hW
  unfold Rep; omega

theorem step_spec (hW : 64 ≤ W) {x : BInt} {v : Int} (hx : Holds W x v) {s : Step} {m : MStep}
    (hs : StepHolds W s m) (hmul : ∀ b, s = .mul b → MulSafe W x.rng b.rng)
    (hc : s.run W x ≠ none) :
    match m.result v with
    | none => s.run W x = some .ub
    | some w =>
      (x.rng.lo ≤ w ∧ w ≤ x.rng.hi → ∃ c, s.run W x = some (.ok c) ∧ c.rng = x.rng ∧ Holds W c w) ∧
      (¬ (x.rng.lo ≤ w ∧ w ≤ x.rng.hi) → s.run W x = some .ub) := by
  cases hs with
  | assign h => exact assign_spec hW hx h hc
  | add h =>
    obtain ⟨c, c1, c2⟩ := plus_holds hW hx h (op_ne_none hc)
    exact compound_spec hW hx c1 c2 hc
  | sub h =>
    obtain ⟨c, c1, c2⟩ := minus_holds hW hx h (op_ne_none hc)
    exact compound_spec hW hx c1 c2 hc
  | mul h =>
    obtain ⟨c, c1, c2⟩ := mul_holds hW hx h (hmul _ rfl) (op_ne_none hc)
    exact compound_spec hW hx c1 c2 hc
  | @div b y h =>
    have sp := div_holds hW hx h (op_ne_none hc)
    simp only [MStep.result]
    by_cases hy : y = 0
    · rw [if_pos hy]
      show compound W Bounded.div x b = some .ub
      unfold compound
      rw [sp.2 hy]; rfl
    · rw [if_neg hy]
      obtain ⟨c, c1, c2⟩ := sp.1 hy
      exact compound_spec hW hx c1 c2 hc
  | inc =>
    obtain ⟨c, c1, c2⟩ := plus_holds hW hx (constB_holds hW (rep_one hW)) (op_ne_none hc)
    exact compound_spec hW hx c1 c2 hc
  | dec =>
    obtain ⟨c, c1, c2⟩ := minus_holds hW hx (constB_holds hW (rep_one hW)) (op_ne_none hc)
    exact compound_spec hW hx c1 c2 hc

/-- C12: after any sequence of assignments, compound assignments, increments and
decrements the variable holds exactly the mathematical result if every intermediate
result is in its range; otherwise the run is undefined. Its type never changes.

Partial: multiplications are restricted by `MulSafe` (see `C12_mul_violated`); the
statement for the other operators is complete. -/
theorem C12_history_partial (hW : 64 ≤ W) : ∀ {steps : List Step} {ms : List MStep} {x : BInt} {v : Int},
    Holds W x v → List.Forall₂ (StepHolds W) steps ms →
    (∀ b, Step.mul b ∈ steps → MulSafe W x.rng b.rng) → runSteps W x steps ≠ none →
    match specRun x.rng.lo x.rng.hi v ms with
    | some w => Yields (runSteps W x steps) x.rng w
    | none => runSteps W x steps = some .ub
  | [], _, x, v, hx, .nil, _, _ => by
    simp only [specRun, runSteps]
    exact yields_of hW ⟨x, rfl, rfl, hx.2⟩ hx.1
  | s :: ss, m :: ms, x, v, hx, .cons hs hss, hm, hc => by
    have hc1 : s.run W x ≠ none := fun h => hc (by unfold runSteps; rw [h]; rfl)
    have sp := step_spec hW hx hs (fun b e => hm b (by rw [e]; simp)) hc1
    simp only [specRun]
    cases hr : m.result v with
    | none =>
      rw [hr] at sp
      simp only at sp ⊢
      unfold runSteps; rw [sp]; rfl
    | some w =>
      rw [hr] at sp
      simp only at sp ⊢
      by_cases hin : x.rng.lo ≤ w ∧ w ≤ x.rng.hi
      · rw [if_pos hin]
        obtain ⟨c, c1, c2, c3⟩ := sp.1 hin
        have e : runSteps W x (s :: ss) = runSteps W c ss := by
          rw [runSteps, c1]; rfl
        have ih := C12_history_partial hW c3 hss
          (fun b hb => by rw [c2]; exact hm b (by simp [hb])) (by rw [← e]; exact hc)
        rw [e, ← c2]
        exact ih
      · rw [if_neg hin]
        simp only
        unfold runSteps; rw [sp.2 hin]; rfl

/-- C12 is false for `*=`: with `x` of type `integer<2^126 + 1, 2^127 - 1>` holding
`2^126 + 1`, `x *= constant<-2>` stores `2^127 - 2`. -/
theorem C12_mul_violated :
    ∃ (x y c : BInt) (v w z : Int), Holds 128 x v ∧ Holds 128 y w ∧
      runSteps 128 x [.mul y] = some (.ok c) ∧ c.value = .ok z ∧ z ≠ v * w := by
  refine ⟨⟨⟨2 ^ 126 + 1, 2 ^ 127 - 1⟩, 2 ^ 126 + 1⟩, constB (-2), ⟨⟨2 ^ 126 + 1, 2 ^ 127 - 1⟩, 2 ^ 127 - 2⟩,
    2 ^ 126 + 1, -2, 2 ^ 127 - 2, ?_⟩
  unfold Holds
  decide +kernel

/-- A history that stays in range, with a narrowing assignment and a multiplication. -/
example : specRun 0 10 5 [.add 3, .mul 1, .sub 4, .inc, .div 2, .assign 7] = some 7 ∧
    runSteps 128 ⟨⟨0, 10⟩, 5⟩ [.add (constB 3), .mul ⟨⟨0, 2⟩, 1⟩, .sub ⟨⟨-3, 6⟩, 4⟩, .inc, .div ⟨⟨1, 3⟩, 2⟩,
      .assign ⟨⟨7, 20⟩, 7⟩] = some (.ok ⟨⟨0, 10⟩, 7⟩) := by decide +kernel
/-- One that leaves the range. -/
example : specRun 0 10 5 [.add 3, .inc, .inc, .inc] = none ∧
    runSteps 128 ⟨⟨0, 10⟩, 5⟩ [.add (constB 3), .inc, .inc, .inc] = some .ub := by decide +kernel

/-! ## C11 -/

/-- Expressions over bounded integer variables and literals. -/
inductive Expr where
  | var (i : Nat)
  | lit (v : Int)
  | neg (e : Expr)
  | abs (e : Expr)
  | add (l r : Expr)
  | sub (l r : Expr)
  | mul (l r : Expr)
  | div (l r : Expr)
  | min (l r : Expr)
  | max (l r : Expr)

/-- The mathematical value; nothing when some divisor is zero. -/
def Expr.math (env : Nat → Int) : Expr → Option Int
  | .var i => some (env i)
  | .lit v => some v
  | .neg e => do return -(← e.math env)
  | .abs e => do return |← e.math env|
  | .add l r => do return (← l.math env) + (← r.math env)
  | .sub l r => do return (← l.math env) - (← r.math env)
  | .mul l r => do return (← l.math env) * (← r.math env)
  | .div l r => do
    let x ← l.math env
    let y ← r.math env
    if y = 0 then none else some (x.tdiv y)
  | .min l r => do return Min.min (← l.math env) (← r.math env)
  | .max l r => do return Max.max (← l.math env) (← r.math env)

/-- Evaluation of a two-operand node: both operands are evaluated first. -/
def node (op : BInt → BInt → Option (Res BInt)) (l r : Option (Res BInt)) : Option (Res BInt) :=
  match l, r with
  | some (.ok a), some (.ok b) => op a b
  | some (.ok _), some .ub => some .ub
  | some (.ok _), some .exn => some .exn
  | some .ub, some _ => some .ub
  | some .exn, some _ => some .exn
  | _, _ => none

/-- Evaluation with the library's operators. -/
def Expr.eval (W : Nat) (env : Nat → BInt) : Expr → Option (Res BInt)
  | .var i => some (.ok (env i))
  | .lit v => some (.ok (constB v))
  | .neg e => do
    match ← e.eval W env with
    | .ok a => Bounded.neg W a
    | .ub => some .ub
    | .exn => some .exn
  | .abs e => do
    match ← e.eval W env with
    | .ok a => Bounded.abs W a
    | .ub => some .ub
    | .exn => some .exn
  | .add l r => node (plus W) (l.eval W env) (r.eval W env)
  | .sub l r => node (minus W) (l.eval W env) (r.eval W env)
  | .mul l r => node (Bounded.mul W) (l.eval W env) (r.eval W env)
  | .div l r => node (Bounded.div W) (l.eval W env) (r.eval W env)
  | .min l r => node (fun a b => extreme W .less a [b]) (l.eval W env) (r.eval W env)
  | .max l r => node (fun a b => extreme W .greater a [b]) (l.eval W env) (r.eval W env)

/-- Literals are representable and no multiplication has operand types whose exact
product range goes below the widest signed type. -/
def Expr.Ok (W : Nat) (env : Nat → BInt) : Expr → Prop
  | .var _ => True
  | .lit v => Rep W v
  | .neg e => e.Ok W env
  | .abs e => e.Ok W env
  | .mul l r => l.Ok W env ∧ r.Ok W env ∧ ∀ a b, l.eval W env = some (.ok a) →
      r.eval W env = some (.ok b) → MulSafe W a.rng b.rng
  | .add l r | .sub l r | .div l r | .min l r | .max l r => l.Ok W env ∧ r.Ok W env

/-- What evaluation is supposed to give. -/
def Expr.Meets (W : Nat) (out : Option (Res BInt)) (m : Option Int) : Prop :=
  match m with
  | some v => ∃ c, out = some (.ok c) ∧ Holds W c v
  | none => out = some .ub

theorem node_meets {op : BInt → BInt → Option (Res BInt)} {f : Int → Int → Option Int}
    {l r : Option (Res BInt)} {ml mr : Option Int}
    (hl : l ≠ none → Expr.Meets W l ml) (hr : r ≠ none → Expr.Meets W r mr)
    (hop : ∀ a b x y, l = some (.ok a) → r = some (.ok b) → Holds W a x → Holds W b y → op a b ≠ none →
      Expr.Meets W (op a b) (f x y))
    (hc : node op l r ≠ none) :
    Expr.Meets W (node op l r) (ml.bind fun x => mr.bind fun y => f x y) := by
  have hl0 : l ≠ none := by
    intro h; apply hc; rw [h]; unfold node; cases r <;> rfl
  have hr0 : r ≠ none := by
    intro h; apply hc; rw [h]; unfold node
    rcases l with _ | (_ | _ | _) <;> rfl
  have hl := hl hl0
  have hr := hr hr0
  cases ml with
  | none =>
    unfold Expr.Meets at hl
    simp only at hl
    subst hl
    cases r with
    | none => exact absurd rfl hr0
    | some r => rfl
  | some x =>
    obtain ⟨a, ha, hax⟩ := hl
    subst ha
    cases mr with
    | none =>
      unfold Expr.Meets at hr
      simp only at hr
      subst hr
      rfl
    | some y =>
      obtain ⟨b, hb, hby⟩ := hr
      subst hb
      exact hop a b x y rfl rfl hax hby hc

theorem eval_meets (hW : 64 ≤ W) {env : Nat → BInt} {menv : Nat → Int}
    (henv : ∀ i, Holds W (env i) (menv i)) (e : Expr) (hok : e.Ok W env) (hc : e.eval W env ≠ none) :
    Expr.Meets W (e.eval W env) (e.math menv) := by
  induction e with
  | var i => exact ⟨_, rfl, henv i⟩
  | lit v => exact ⟨_, rfl, constB_holds hW hok⟩
  | neg e ih =>
    have h0 : e.eval W env ≠ none := fun h => hc (by unfold Expr.eval; rw [h]; rfl)
    have ih := ih hok h0
    unfold Expr.eval at hc ⊢
    unfold Expr.math
    cases hm : e.math menv with
    | none =>
      rw [hm] at ih
      unfold Expr.Meets at ih
      simp only at ih
      rw [ih]; rfl
    | some x =>
      rw [hm] at ih
      obtain ⟨a, h1, h2⟩ := ih
      rw [h1] at hc ⊢
      exact neg_holds hW h2 hc
  | abs e ih =>
    have h0 : e.eval W env ≠ none := fun h => hc (by unfold Expr.eval; rw [h]; rfl)
    have ih := ih hok h0
    unfold Expr.eval at hc ⊢
    unfold Expr.math
    cases hm : e.math menv with
    | none =>
      rw [hm] at ih
      unfold Expr.Meets at ih
      simp only at ih
      rw [ih]; rfl
    | some x =>
      rw [hm] at ih
      obtain ⟨a, h1, h2⟩ := ih
      rw [h1] at hc ⊢
      obtain ⟨c, c1, c2, _⟩ := abs_value hW h2 hc
      exact ⟨c, c1, c2⟩
  | add l r il ir =>
    exact node_meets (il hok.1) (ir hok.2) (fun a b x y _ _ ha hb h => plus_holds hW ha hb h) hc
  | sub l r il ir =>
    exact node_meets (il hok.1) (ir hok.2) (fun a b x y _ _ ha hb h => minus_holds hW ha hb h) hc
  | mul l r il ir =>
    exact node_meets (il hok.1) (ir hok.2.1)
      (fun a b x y e1 e2 ha hb h => mul_holds hW ha hb (hok.2.2 a b e1 e2) h) hc
  | div l r il ir =>
    refine node_meets (f := fun x y => if y = 0 then none else some (x.tdiv y)) (il hok.1) (ir hok.2)
      (fun a b x y _ _ ha hb h => ?_) hc
    have sp := div_holds hW ha hb h
    by_cases hy : y = 0
    · simp only [hy, if_true]; exact sp.2 hy
    · simp only [hy, if_false]; exact sp.1 hy
  | min l r il ir =>
    refine node_meets (il hok.1) (ir hok.2) (fun a b x y _ _ ha hb h => ?_) hc
    obtain ⟨c, c1, c2, _⟩ := extreme_value hW .less ha (List.Forall₂.cons hb .nil)
    exact ⟨c, c1, c2⟩
  | max l r il ir =>
    refine node_meets (il hok.1) (ir hok.2) (fun a b x y _ _ ha hb h => ?_) hc
    obtain ⟨c, c1, c2, _⟩ := extreme_value hW .greater ha (List.Forall₂.cons hb .nil)
    exact ⟨c, c1, c2⟩

/-- C11: an expression of any depth that compiles evaluates to its mathematical value,
inside the declared range of its type, without undefined behaviour at any node. When a
divisor is zero it is undefined.

Partial: `Expr.Ok` restricts multiplication nodes (see `C11_mul_violated`); there is no
restriction on the other nodes. -/
theorem C11_expression_exact_partial (hW : 64 ≤ W) {env : Nat → BInt} {menv : Nat → Int}
    (henv : ∀ i, Holds W (env i) (menv i)) (e : Expr) (hok : e.Ok W env) (hc : e.eval W env ≠ none) :
    match e.math menv with
    | some v => ∃ r, Yields (e.eval W env) r v
    | none => e.eval W env = some .ub := by
  have h := eval_meets hW henv e hok hc
  unfold Expr.Meets at h
  cases hm : e.math menv with
  | none => rw [hm] at h; exact h
  | some v =>
    rw [hm] at h
    obtain ⟨c, h1, h2⟩ := h
    exact ⟨c.rng, yields_of hW ⟨c, h1, rfl, h2.2⟩ h2.1⟩

/-- The restriction is needed. -/
theorem C11_mul_violated : ∃ (e : Expr) (v z : Int) (c : BInt),
    e.math (fun _ => 0) = some v ∧ e.eval 128 (fun _ => constB 0) = some (.ok c) ∧
      c.value = .ok z ∧ z ≠ v := by
  refine ⟨.add (.mul (.lit (2 ^ 127 - 1)) (.lit (-2))) (.var 0), -(2 ^ 128) + 2, 2, ⟨⟨2, 2⟩, 2⟩, ?_⟩
  decide +kernel

/-- A deep expression in which intermediate results leave the range of `int`. -/
example : (Expr.div (.sub (.mul (.var 0) (.var 1)) (.abs (.neg (.var 2)))) (.max (.lit 3) (.var 2))).eval 128
    (fun i => ⟨⟨-2147483648, 2147483647⟩, i + 2147483000⟩) =
      some (.ok ⟨⟨-1537228672809129301, 1537228672809129301⟩, 2147482998⟩) := by decide +kernel

end Verif.Bounded
