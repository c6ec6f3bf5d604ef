import Verif.Bounded.Program
import Verif.Bounded.Mixed

/-!
# Programs over bounded and built-in integers (C115)

C98 is about programs all of whose variables are bounded integers, C68 about one operator with a built-in operand. Here the variables are of both kinds.
Every operator has at least one bounded operand; an operator with a built-in operand has a built-in result (source/bounded/arithmetic/operators_builtin.cpp).
`check_in_range` may throw. The claim is that no operator overflows or wraps: the program runs as on mathematical integers, and the only things that
built-in integers bring in are the conversions that are written down as such (`static_cast`, assignment to a built-in variable).

Simplified: of two operands the left one is evaluated first; the language leaves the order open. Operators with two built-in operands are those of the language
and are not in the programs.
-/

namespace Verif.Bounded.Both

open Verif Bounded

/-! ## Model -/

/-- The type of a variable or expression. -/
inductive GTy where
  | bounded (r : Rng)
  | builtin (t : CTy)
  deriving DecidableEq

/-- The values of a type (`builtin_min_value` and `builtin_max_value`, source/bounded/integer.cpp 212-216). -/
def GTy.rng : GTy → Rng
  | .bounded r => r
  | .builtin t => ⟨t.lo, t.hi⟩

/-- The type of a value. -/
def tyOf : Arg → GTy
  | .bounded b => .bounded b.rng
  | .builtin t _ => .builtin t

/-- A bounded result. -/
def ofB (r : Option (Res BInt)) : Option (Res Arg) := r.map fun r => Arg.bounded <$> r

/-- A built-in result. -/
def ofN (r : Option (Res (CTy × Int))) : Option (Res Arg) := r.map fun r => (fun p => Arg.builtin p.1 p.2) <$> r

/-- Whether there are overloads for a built-in operand: all but `min` and `max` (source/bounded/arithmetic/operators_builtin.cpp 37-43; minus by the generic
operator). -/
def mixes : Op2 → Bool
  | .min | .max => false
  | _ => true

/-- The overload that is called: the bounded one, source/bounded/arithmetic/operators_builtin.cpp 19-25, or for minus `lhs + -rhs`
(source/bounded/arithmetic/increment_decrement.cpp 24). -/
def opA (W : Nat) (o : Op2) : Arg → Arg → Option (Res Arg)
  | .bounded a, .bounded b => ofB (o.run W a b)
  | .bounded a, .builtin t v =>
    if o = .sub then ofN (minusBuiltin W a t v)
    else if mixes o then ofN (mixed W (fun W => o.run W) (.bounded a) (.builtin t v)) else none
  | .builtin t v, .bounded b =>
    if o = .sub then ofN (minusFromBuiltin W t v b)
    else if mixes o then ofN (mixed W (fun W => o.run W) (.builtin t v) (.bounded b)) else none
  | .builtin .., .builtin .. => none

/-- The type of the result, nothing if the operator is rejected: the compile-time parts of the same. -/
def opTy (W : Nat) (o : Op2) : GTy → GTy → Option GTy
  | .bounded A, .bounded B => (o.ty W A B).map .bounded
  | .bounded A, .builtin t =>
    if o = .sub then (plusTy W A ⟨t.promote.lo, t.promote.hi⟩).map fun r => .builtin (r.under W)
    else if mixes o then (o.ty W A ⟨t.lo, t.hi⟩).map fun r => .builtin (r.under W) else none
  | .builtin t, .bounded B => if mixes o then (o.ty W ⟨t.lo, t.hi⟩ B).map fun r => .builtin (r.under W) else none
  | .builtin _, .builtin _ => none

/-- The compile-time part of `check_in_range<integer<lo, hi>>` (source/bounded/check_in_range.cpp 47-63, integer.cpp 78-84). -/
def checkTy (W : Nat) (T A : Rng) : Option GTy := do
  let r ← mkInteger W (safeMax W T.lo A.lo) (safeMin W T.hi A.hi)
  if A.overlaps W r then some (.bounded T) else none

/-- Expressions: variables, bounded literals, built-in literals, `integer(e)`, `static_cast<t>(e)`, `check_in_range<integer<lo, hi>>(e)` and operators. -/
inductive GExpr where
  | var (i : Nat)
  | lit (v : Int)
  | num (t : CTy) (v : Int)
  | wrap (e : GExpr)
  | cast (t : CTy) (e : GExpr)
  | check (T : Rng) (e : GExpr)
  | bin (o : Op2) (l r : GExpr)

/-- The type of an expression, nothing if it does not compile. -/
def GExpr.ty (W : Nat) (Γ : Nat → GTy) : GExpr → Option GTy
  | .var i => some (Γ i)
  | .lit v => (mkInteger W v v).map .bounded
  | .num t _ => some (.builtin t)
  | .wrap e => (e.ty W Γ).map fun A => .bounded A.rng
  | .cast t e => (e.ty W Γ).map fun _ => .builtin t
  | .check T e => do checkTy W T (← e.ty W Γ).rng
  | .bin o l r => do opTy W o (← l.ty W Γ) (← r.ty W Γ)

/-- Go on with a value. -/
def after (r : Option (Res Arg)) (f : Arg → Option (Res β)) : Option (Res β) :=
  match r with
  | some (.ok a) => f a
  | some .ub => some .ub
  | some .exn => some .exn
  | none => none

/-- Evaluation with the library's operators. `integer(e)`: source/bounded/integer.cpp 182-186, 223-224; `static_cast`: 196-201;
`check_in_range`: source/bounded/check_in_range.cpp 56-63. -/
def GExpr.eval (W : Nat) (env : Nat → Arg) : GExpr → Option (Res Arg)
  | .var i => some (.ok (env i))
  | .lit v => some (.ok (.bounded (constB v)))
  | .num t v => some (.ok (.builtin t v))
  | .wrap e => after (e.eval W env) fun a => some (.ok (.bounded (a.toB W)))
  | .cast t e => after (e.eval W env) fun a => some (do return .builtin t (t.wrap (← a.read)))
  | .check T e => after (e.eval W env) fun a => ofB (checkInRangeTarget W T a)
  | .bin o l r => after (l.eval W env) fun a => after (r.eval W env) fun b => opA W o a b

/-- `lhs` and `rhs` exchanged. -/
def flip : Rel → Rel
  | .lt => .gt
  | .le => .ge
  | .gt => .lt
  | .ge => .le
  | .eq => .eq
  | .ne => .ne

/-- Comparison (source/bounded/comparison_builtin.cpp 17-22, for a built-in left operand by the rewriting rules of the language). -/
def relA (W : Nat) (c : Rel) : Arg → Arg → Option (Res Bool)
  | .bounded a, r => some (c.run W a (r.toB W))
  | .builtin t v, .bounded b => some ((flip c).run W b ((Arg.builtin t v).toB W))
  | .builtin .., .builtin .. => none

/-- Programs. A condition is a comparison. `x op= e` is `x = x op e` (source/bounded/arithmetic/increment_decrement.cpp 23). -/
inductive GStmt where
  | skip
  | assign (i : Nat) (e : GExpr)
  | seq (s t : GStmt)
  | ite (c : Rel) (l r : GExpr) (s t : GStmt)
  | loop (c : Rel) (l r : GExpr) (s : GStmt)
  | catching (s t : GStmt)

/-- A condition. -/
def condA (W : Nat) (env : Nat → Arg) (c : Rel) (l r : GExpr) : Option (Res Bool) :=
  after (l.eval W env) fun a => after (r.eval W env) fun b => relA W c a b

/-- Assignment to a variable: source/bounded/integer.cpp 192-194 for a bounded one, the conversion of the language for a built-in one. A bounded value is not
converted implicitly (198-201). -/
def assignA (W : Nat) : Arg → Arg → Option (Res Arg)
  | .bounded x, v => ofB (Bounded.assign W x (v.toB W))
  | .builtin t _, .builtin _ v => some (.ok (.builtin t (t.wrap v)))
  | .builtin .., .bounded _ => none

/-- How a run ends: an exception leaves the variables as they are then. -/
inductive GRun (σ : Type) where
  | done (s : σ)
  | threw (s : σ)
  | undef
  | rejected
  | more

/-- One thing after another. -/
def GRun.next (r : GRun σ) (f : σ → GRun σ) : GRun σ :=
  match r with
  | .done s => f s
  | r => r

/-- `try { s } catch (...) { t }`. -/
def GRun.orElse (r : GRun σ) (f : σ → GRun σ) : GRun σ :=
  match r with
  | .threw s => f s
  | r => r

/-- The next step after an operation. -/
def GRun.after (s : σ) (r : Option (Res β)) (f : β → GRun σ) : GRun σ :=
  match r with
  | some (.ok a) => f a
  | some .ub => .undef
  | some .exn => .threw s
  | none => .rejected

/-- The rounds of a loop, at most `n`. -/
def roundsA (cond : σ → Option (Res Bool)) (body : σ → GRun σ) : Nat → σ → GRun σ
  | 0, _ => .more
  | n + 1, s => .after s (cond s) fun b => if b then (body s).next (roundsA cond body n) else .done s

/-- A program with the library's operators, for at most `n` rounds of every loop. -/
def GStmt.exec (W n : Nat) : GStmt → (Nat → Arg) → GRun (Nat → Arg)
  | .skip, env => .done env
  | .assign i e, env => .after env (e.eval W env) fun v => .after env (assignA W (env i) v) fun x => .done (upd env i x)
  | .seq s t, env => (s.exec W n env).next (t.exec W n)
  | .ite c l r s t, env => .after env (condA W env c l r) fun b => if b then s.exec W n env else t.exec W n env
  | .loop c l r s, env => roundsA (fun env => condA W env c l r) (s.exec W n) n env
  | .catching s t, env => (s.exec W n env).orElse (t.exec W n)

/-! ## Specification -/

/-- Subtracting a number of built-in type negates it first, in its promoted type; the least number of that type has no negation there. -/
def NoNegation (o : Op2) (A B : GTy) (y : Int) : Prop :=
  match A, B with
  | .bounded _, .builtin t => o = .sub ∧ 32 ≤ t.bits ∧ y = t.lo
  | _, _ => False

instance : Decidable (NoNegation o A B y) := by
  unfold NoNegation; split <;> infer_instance

/-- The value of the type that is congruent to the given one: conversions between built-in types. -/
def reduce (t : CTy) (v : Int) : Int := t.lo + (v - t.lo) % 2 ^ t.bits

/-- An expression on mathematical integers. `static_cast<t>` reduces to the values of `t`. -/
def GExpr.math (W : Nat) (Γ : Nat → GTy) (m : Nat → Int) : GExpr → Res Int
  | .var i => .ok (m i)
  | .lit v => .ok v
  | .num _ v => .ok v
  | .wrap e => e.math W Γ m
  | .cast t e => do return reduce t (← e.math W Γ m)
  | .check T e => do
    let v ← e.math W Γ m
    if T.lo ≤ v ∧ v ≤ T.hi then .ok v else .exn
  | .bin o l r => do
    let x ← l.math W Γ m
    let y ← r.math W Γ m
    if ∃ A ∈ l.ty W Γ, ∃ B ∈ r.ty W Γ, NoNegation o A B y then .ub
    else match o.math x y with
      | some v => .ok v
      | none => .ub

/-- Which types are excluded: those of C98, and subtracting an unsigned number of 32 or more bits (C68). -/
def opSafe (W : Nat) (o : Op2) (A B : GTy) : Prop :=
  o.Safe W A.rng B.rng ∧
  match A, B with
  | .bounded _, .builtin t => o = .sub → 32 ≤ t.bits → t.signed = true
  | _, _ => True

/-- None of the operators has operands of excluded types. The built-in types that occur are those of the language, and literals have their type. -/
def GExpr.Safe (W : Nat) (Γ : Nat → GTy) : GExpr → Prop
  | .var _ | .lit _ => True
  | .num t v => Ty W t ∧ t.Fits v
  | .wrap e => e.Safe W Γ
  | .cast t e => Ty W t ∧ e.Safe W Γ
  | .check T e => T.Wf W ∧ e.Safe W Γ
  | .bin o l r => l.Safe W Γ ∧ r.Safe W Γ ∧ ∀ A B, l.ty W Γ = some A → r.ty W Γ = some B → opSafe W o A B

/-- At least one is bounded. -/
def OneBounded : GTy → GTy → Prop
  | .builtin _, .builtin _ => False
  | _, _ => True

/-- A condition compiles and no types are excluded. -/
def CondOk (W : Nat) (Γ : Nat → GTy) (l r : GExpr) : Prop :=
  l.Safe W Γ ∧ r.Safe W Γ ∧ ∃ A B, l.ty W Γ = some A ∧ r.ty W Γ = some B ∧ OneBounded A B

/-- A value of one type can be assigned to a variable of another. -/
def Assignable : GTy → GTy → Prop
  | .bounded A, B => Overlap A B.rng
  | .builtin _, .builtin _ => True
  | .builtin _, .bounded _ => False

/-- The program compiles and no types are excluded. -/
def GStmt.Ok (W : Nat) (Γ : Nat → GTy) : GStmt → Prop
  | .skip => True
  | .assign i e => e.Safe W Γ ∧ ∃ A, e.ty W Γ = some A ∧ Assignable (Γ i) A
  | .seq s t | .catching s t => s.Ok W Γ ∧ t.Ok W Γ
  | .ite _ l r s t => CondOk W Γ l r ∧ s.Ok W Γ ∧ t.Ok W Γ
  | .loop _ l r s => CondOk W Γ l r ∧ s.Ok W Γ

/-- A variable takes the values of its type; a built-in one reduces the others. -/
def storeA (T : GTy) (v : Int) : Res Int :=
  match T with
  | .bounded r => if r.lo ≤ v ∧ v ≤ r.hi then .ok v else .ub
  | .builtin t => .ok (reduce t v)

/-- A condition on mathematical integers. -/
def condM (W : Nat) (Γ : Nat → GTy) (m : Nat → Int) (c : Rel) (l r : GExpr) : Res Bool := do
  let x ← l.math W Γ m
  let y ← r.math W Γ m
  return c.math x y

/-- The program on mathematical integers. -/
def GStmt.math (W : Nat) (Γ : Nat → GTy) (n : Nat) : GStmt → (Nat → Int) → GRun (Nat → Int)
  | .skip, m => .done m
  | .assign i e, m => .after m (some (e.math W Γ m)) fun v => .after m (some (storeA (Γ i) v)) fun x => .done (upd m i x)
  | .seq s t, m => (s.math W Γ n m).next (t.math W Γ n)
  | .ite c l r s t, m => .after m (some (condM W Γ m c l r)) fun b => if b then s.math W Γ n m else t.math W Γ n m
  | .loop c l r s, m => roundsA (fun m => some (condM W Γ m c l r)) (s.math W Γ n) n m
  | .catching s t, m => (s.math W Γ n m).orElse (t.math W Γ n)

/-- The variables have their types and hold the given values. -/
def EnvA (W : Nat) (Γ : Nat → GTy) (env : Nat → Arg) (m : Nat → Int) : Prop := ∀ i, tyOf (env i) = Γ i ∧ ArgHolds W (env i) (m i)

/-- What evaluation is supposed to give, at a type. -/
def MeetsA (W : Nat) (T : GTy) (out : Option (Res Arg)) : Res Int → Prop
  | .ok v => ∃ c, out = some (.ok c) ∧ tyOf c = T ∧ ArgHolds W c v
  | .ub => out = some .ub
  | .exn => out = some .exn

/-- The two runs end in the same way, with the same values of the variables. -/
def AgreeA (W : Nat) (Γ : Nat → GTy) : GRun (Nat → Arg) → GRun (Nat → Int) → Prop
  | .done env, .done m => EnvA W Γ env m
  | .threw env, .threw m => EnvA W Γ env m
  | .undef, .undef => True
  | .more, .more => True
  | _, _ => False

/-! ## Proofs -/

variable {W : Nat}

theorem rng_tyOf (a : Arg) : (tyOf a).rng = a.rng := by cases a <;> rfl

theorem rng_wf (hW : 64 ≤ W) {a : Arg} {x : Int} (h : ArgHolds W a x) : a.rng.Wf W := by
  have := toB_holds hW h
  rw [← this.2]
  exact this.1.1

/-- An operator with one built-in operand, other than minus. -/
theorem mixed_meets (hW : 64 ≤ W) (hW2 : W ≤ 128) {o : Op2} {l r : Arg} {x y : Int} (hl : ArgHolds W l x) (hr : ArgHolds W r y) {q : Rng}
    (hty : o.ty W l.rng r.rng = some q) (hs : o.Safe W l.rng r.rng) :
    MeetsA W (.builtin (q.under W)) (ofN (mixed W (fun W => o.run W) l r)) (match o.math x y with | some v => .ok v | none => .ub) := by
  have tl := toB_holds hW hl
  have tr := toB_holds hW hr
  have sound := (C98_operator_exactly hW hW2 o (rng_wf hW hl) (rng_wf hW hr)).2 ⟨by rw [hty]; exact (fun h => by cases h), hs⟩
  have sp := sound _ _ x y tl.1 tr.1 tl.2 tr.2
  cases hm : o.math x y with
  | none =>
    rw [hm] at sp
    have sp : o.run W (l.toB W) (r.toB W) = some .ub := sp
    show ofN _ = some .ub
    unfold mixed
    dsimp only
    rw [sp]
    rfl
  | some v =>
    rw [hm] at sp
    obtain ⟨c, c1, c2, c3⟩ := sp
    rw [hty] at c2
    cases c2
    obtain ⟨e, h1, h2⟩ := mixed_of_holds hW (op := fun W => o.run W) c1 c3
    refine ⟨.builtin (c.rng.under W) v, ?_, rfl, h1, h2, rfl⟩
    rw [e]
    rfl

theorem wrap_eq_reduce {t : CTy} (h : 1 ≤ t.bits) (v : Int) : t.wrap v = reduce t v := by
  have f := CTy.wrap_fits h v
  have e := CTy.wrap_emod t v
  have p := CTy.two_pow_pos t.bits
  have hi : t.hi = t.lo + 2 ^ t.bits - 1 := by
    unfold CTy.hi CTy.lo
    have : (2 : Int) ^ t.bits = 2 * 2 ^ (t.bits - 1) := by rw [← Int.pow_succ']; congr 1; omega
    cases t.signed <;> simp only [if_true, Bool.false_eq_true, if_false] <;> omega
  unfold reduce
  have : (v - t.lo) % 2 ^ t.bits = (t.wrap v - t.lo) % 2 ^ t.bits := by
    rw [Int.sub_emod, ← e, ← Int.sub_emod]
  rw [this, Int.emod_eq_of_lt (by have := f.1; omega) (by have := f.2; omega)]
  omega

/-- An operator with any two operands. -/
theorem opA_meets (hW : 64 ≤ W) (hW2 : W ≤ 128) {o : Op2} {a b : Arg} {x y : Int} (ha : ArgHolds W a x) (hb : ArgHolds W b y) {T : GTy}
    (ht : opTy W o (tyOf a) (tyOf b) = some T) (hs : opSafe W o (tyOf a) (tyOf b)) :
    MeetsA W T (opA W o a b) (if NoNegation o (tyOf a) (tyOf b) y then .ub else match o.math x y with | some v => .ok v | none => .ub) := by
  obtain ⟨hs, hs2⟩ := hs
  cases a with
  | bounded a =>
    cases b with
    | bounded b =>
      rw [if_neg (by exact id)]
      have ht : (o.ty W a.rng b.rng).map GTy.bounded = some T := ht
      rw [Option.map_eq_some_iff] at ht
      obtain ⟨r, hr, rfl⟩ := ht
      have sp := (C98_operator_exactly hW hW2 o ha.1 hb.1).2 ⟨by rw [hr]; exact (fun h => by cases h), hs⟩ a b x y ha hb rfl rfl
      show MeetsA W _ (ofB (o.run W a b)) _
      cases hm : o.math x y with
      | none =>
        rw [hm] at sp
        rw [show o.run W a b = some .ub from sp]
        rfl
      | some v =>
        rw [hm] at sp
        obtain ⟨c, c1, c2, c3⟩ := sp
        rw [hr] at c2
        cases c2
        rw [c1]
        exact ⟨.bounded c, rfl, rfl, c3⟩
    | builtin t w =>
      have e : w = y := hb.2.2
      subst e
      by_cases ho : o = .sub
      · subst ho
        have ht : (plusTy W a.rng ⟨t.promote.lo, t.promote.hi⟩).map (fun r => GTy.builtin (r.under W)) = some T := ht
        rw [Option.map_eq_some_iff] at ht
        obtain ⟨r, hr, rfl⟩ := ht
        show MeetsA W _ (ofN (minusBuiltin W a t w)) _
        have hf := hb.2.1
        have h1 : 1 ≤ t.bits := hb.1.1
        have p := CTy.two_pow_pos (t.bits - 1)
        have p2 : (2 : Int) ^ t.bits = 2 * 2 ^ (t.bits - 1) := by rw [← Int.pow_succ']; congr 1; omega
        by_cases hn : 32 ≤ t.bits ∧ w = t.lo
        · rw [if_pos (show NoNegation .sub (tyOf (.bounded a)) (tyOf (.builtin t w)) w from ⟨rfl, hn⟩)]
          have hsg := hs2 rfl hn.1
          have ep : t.promote = t := by unfold CTy.promote; rw [if_neg (by omega)]
          have : builtinNeg t w = .ub := by
            unfold builtinNeg CTy.arith
            rw [ep, hsg, if_pos rfl, if_neg]
            · rfl
            · rw [hn.2]
              unfold CTy.Fits CTy.hi CTy.lo
              rw [hsg]
              simp only [if_true]
              omega
          unfold minusBuiltin
          rw [this]
          rfl
        · rw [if_neg (show ¬ NoNegation .sub (tyOf (.bounded a)) (tyOf (.builtin t w)) w from fun h => hn h.2)]
          have hfit : t.promote.Fits (-w) := by
            by_cases hb32 : t.bits < 32
            · have q1 : (2 : Int) ^ t.bits ≤ 2 ^ 31 := CTy.two_pow_le (by omega)
              unfold CTy.promote
              rw [if_pos hb32]
              unfold CTy.Fits CTy.lo CTy.hi at hf ⊢
              simp only [if_true] at hf ⊢
              cases hsg : t.signed <;> rw [hsg] at hf <;> simp only [if_true, Bool.false_eq_true, if_false] at hf <;> constructor <;> norm_num at * <;> omega
            · have ep : t.promote = t := by unfold CTy.promote; rw [if_neg (by omega)]
              have hsg := hs2 rfl (by omega)
              have hne : w ≠ t.lo := fun h => hn ⟨by omega, h⟩
              rw [ep]
              unfold CTy.Fits CTy.lo CTy.hi at hf ⊢
              unfold CTy.lo at hne
              rw [hsg] at hf hne ⊢
              simp only [if_true] at hf hne ⊢
              omega
          have e : builtinNeg t w = .ok (t.promote, -w) := by
            unfold builtinNeg CTy.arith
            cases hsg : t.promote.signed
            · simp only [Bool.false_eq_true, if_false, Res.ok_bind, Res.pure_def]
              rw [Int.emod_eq_of_lt]
              · have := hfit.1; unfold CTy.lo at this; rw [hsg] at this; simpa using this
              · have := hfit.2; unfold CTy.hi at this; rw [hsg] at this; simp at this; omega
            · rw [if_pos rfl, if_pos hfit]; rfl
          have := mixed_meets hW hW2 (o := .add) (l := .bounded a) (r := .builtin t.promote (-w)) (x := x) (y := -w) ha
            ⟨promote_ty hb.1 hW, hfit, rfl⟩ (q := r) hr trivial
          unfold minusBuiltin
          rw [e]
          have e2 : Op2.math x (-w) .add = Op2.math x w .sub := by unfold Op2.math; congr 1
          rw [e2] at this
          exact this
      · have hnn : ¬ NoNegation o (tyOf (.bounded a)) (tyOf (.builtin t w)) w := fun h => ho h.1
        rw [if_neg hnn]
        unfold opTy at ht
        dsimp only [tyOf] at ht
        unfold opA
        dsimp only
        rw [if_neg ho] at ht ⊢
        by_cases hx : mixes o = true
        · rw [if_pos hx] at ht ⊢
          rw [Option.map_eq_some_iff] at ht
          obtain ⟨r, hr, rfl⟩ := ht
          exact mixed_meets hW hW2 (l := .bounded a) (r := .builtin t w) ha hb hr hs
        · rw [if_neg hx] at ht; cases ht
  | builtin t w =>
    cases b with
    | builtin u z => cases ht
    | bounded b =>
      rw [if_neg (by exact id)]
      have e : w = x := ha.2.2
      subst e
      by_cases hx : mixes o = true
      · unfold opTy at ht
        dsimp only [tyOf] at ht
        rw [if_pos hx, Option.map_eq_some_iff] at ht
        obtain ⟨r, hr, rfl⟩ := ht
        unfold opA
        dsimp only
        by_cases ho : o = .sub
        · subst ho
          rw [if_pos rfl]
          have hr : minusTy W ⟨t.lo, t.hi⟩ b.rng = some r := hr
          unfold minusTy at hr
          simp only [Option.bind_eq_bind, Option.bind_eq_some_iff] at hr
          obtain ⟨q, hq, hr⟩ := hr
          obtain ⟨nb, n1, n2, n3, n4, n5⟩ := neg_value hW hb.1 hq hb.2
          unfold minusFromBuiltin
          rw [n1]
          have := mixed_meets hW hW2 (o := .add) (l := .builtin t w) (r := .bounded nb) (x := w) (y := -y) ha
            ⟨by rw [n2]; exact n5, n3⟩ (q := r) (by rw [← n2] at hr; exact hr) trivial
          have e2 : Op2.math w (-y) .add = Op2.math w y .sub := by unfold Op2.math; congr 1
          rw [e2] at this
          exact this
        · rw [if_neg ho, if_pos hx]
          exact mixed_meets hW hW2 (l := .builtin t w) (r := .bounded b) ha hb hr hs
      · unfold opTy at ht
        dsimp only [tyOf] at ht
        rw [if_neg hx] at ht; cases ht

theorem after_meets {A T : GTy} {out : Option (Res Arg)} {s : Res Int} (h : MeetsA W A out s) {f : Arg → Option (Res Arg)} {g : Int → Res Int}
    (hf : ∀ c v, tyOf c = A → ArgHolds W c v → MeetsA W T (f c) (g v)) : MeetsA W T (after out f) (s >>= g) := by
  cases s with
  | ok v =>
    obtain ⟨c, h1, h2, h3⟩ := h
    rw [h1]
    exact hf c v h2 h3
  | ub => rw [show out = some .ub from h]; rfl
  | exn => rw [show out = some .exn from h]; rfl

/-- `check_in_range`. -/
theorem check_meets (hW : 64 ≤ W) {R : Rng} (hR : R.Wf W) {a : Arg} {x : Int} (ha : ArgHolds W a x) {T : GTy} (ht : checkTy W R a.rng = some T) :
    MeetsA W T (ofB (checkInRangeTarget W R a)) (if R.lo ≤ x ∧ x ≤ R.hi then .ok x else .exn) := by
  unfold checkTy at ht
  simp only [Option.bind_eq_bind, Option.bind_eq_some_iff] at ht
  obtain ⟨r, hr, ht⟩ := ht
  have hov : a.rng.overlaps W r = true := by
    by_contra h
    rw [if_neg h] at ht
    cases ht
  rw [if_pos hov] at ht
  cases ht
  have rr := hR.rep hW
  have h0 : checkInRange W a (.bounded (constB R.lo)) (.bounded (constB R.hi)) ≠ none := by
    unfold checkInRange
    have e : assumeImplArg W a (.bounded (constB R.lo)) (.bounded (constB R.hi)) = some (do return r.unchecked W (← a.read)) := by
      unfold assumeImplArg
      show (mkInteger W (safeMax W R.lo a.rng.lo) (safeMin W R.hi a.rng.hi) >>= _) = _
      rw [hr]
      exact if_pos hov
    rw [e]
    cases a.read <;> exact fun h => by cases h
  have k2 : SameKind a (.bounded (constB R.hi)) := by cases a <;> exact trivial
  have sp := checkInRange_spec hW ha (lo := .bounded (constB R.lo)) (hi := .bounded (constB R.hi))
    (constB_holds hW rr.1) (constB_holds hW rr.2) h0 trivial k2
  have hc : checkInRangeTarget W R a ≠ none := by
    unfold checkInRangeTarget
    by_cases hin : R.lo ≤ x ∧ x ≤ R.hi
    · obtain ⟨c, c1, c2, c3⟩ := sp.1 hin
      rw [c1]
      simp only [Option.bind_eq_bind, Option.bind_some]
      split
      · exact fun h => by cases h
      · obtain ⟨d, d1, d2, d3⟩ := convert_holds hW hR c3 (by rw [c2]; simp only [Arg.rng, constB]; omega)
        rw [d1]
        exact fun h => by cases h
    · rw [sp.2 hin]
      exact fun h => by cases h
  have key := C13_check_in_range_target hW hR ha hc
  by_cases hin : R.lo ≤ x ∧ x ≤ R.hi
  · rw [if_pos hin]
    obtain ⟨c, c1, c2, c3⟩ := key.1 hin
    rw [c1]
    exact ⟨.bounded c, rfl, by rw [← c2]; rfl, by rw [c2]; exact hR, c3.1⟩
  · rw [if_neg hin, key.2 hin]
    rfl

/-- **C115**: an expression over bounded and built-in integers gives the mathematical value at its type, throws exactly when a `check_in_range` is given a
value outside of its range, and is undefined exactly when a divisor is zero or the least number of a signed type is subtracted.

Missing for the full claim: operands of the types that `opSafe` excludes, for which operators are wrong (C98, C68). -/
theorem C115_expression_partial (hW : 64 ≤ W) (hW2 : W ≤ 128) {Γ : Nat → GTy} {env : Nat → Arg} {m : Nat → Int} (henv : EnvA W Γ env m) (e : GExpr) :
    ∀ {T : GTy}, e.ty W Γ = some T → e.Safe W Γ → MeetsA W T (e.eval W env) (e.math W Γ m) := by
  induction e with
  | var i =>
    intro T ht _
    cases ht
    exact ⟨_, rfl, henv i⟩
  | lit v =>
    intro T ht _
    have ht : (mkInteger W v v).map GTy.bounded = some T := ht
    rw [Option.map_eq_some_iff] at ht
    obtain ⟨r, hr, rfl⟩ := ht
    have hs := mkInteger_some hW hr
    have hv : Rep W v := (hs.2.2.rep hW hs.2.1).1
    refine ⟨_, rfl, ?_, constB_holds hW hv⟩
    rw [hs.1]
    rfl
  | num t v =>
    intro T ht hs
    cases ht
    exact ⟨_, rfl, rfl, hs.1, hs.2, rfl⟩
  | wrap e ih =>
    intro T ht hs
    have ht : (e.ty W Γ).map (fun A => GTy.bounded A.rng) = some T := ht
    rw [Option.map_eq_some_iff] at ht
    obtain ⟨A, hA, rfl⟩ := ht
    have bp : ∀ s : Res Int, s = s >>= Res.ok := fun s => by cases s <;> rfl
    unfold GExpr.eval GExpr.math
    rw [bp (e.math W Γ m)]
    refine after_meets (ih hA hs) fun c v h1 h2 => ?_
    have := toB_holds hW h2
    refine ⟨_, rfl, ?_, this.1⟩
    show GTy.bounded (c.toB W).rng = _
    rw [this.2, ← rng_tyOf, h1]
  | cast t e ih =>
    intro T ht hs
    have ht : (e.ty W Γ).map (fun _ => GTy.builtin t) = some T := ht
    rw [Option.map_eq_some_iff] at ht
    obtain ⟨A, hA, rfl⟩ := ht
    refine after_meets (ih hA hs.2) fun c v h1 h2 => ?_
    have hr : c.read = .ok v := by
      cases c with
      | bounded b => exact h2.2
      | builtin u w => show Res.ok w = _; rw [h2.2.2]
    rw [hr]
    refine ⟨.builtin t (t.wrap v), rfl, rfl, hs.1, CTy.wrap_fits hs.1.1 v, wrap_eq_reduce hs.1.1 v⟩
  | check R e ih =>
    intro T ht hs
    unfold GExpr.ty at ht
    simp only [Option.bind_eq_bind, Option.bind_eq_some_iff] at ht
    obtain ⟨A, hA, ht⟩ := ht
    refine after_meets (ih hA hs.2) fun c v h1 h2 => ?_
    refine check_meets hW hs.1 h2 ?_
    rw [← rng_tyOf, h1]
    exact ht
  | bin o l r il ir =>
    intro T ht hs
    unfold GExpr.ty at ht
    simp only [Option.bind_eq_bind, Option.bind_eq_some_iff] at ht
    obtain ⟨A, hA, B, hB, ht⟩ := ht
    refine after_meets (il hA hs.1) fun a x a1 a2 => after_meets (ir hB hs.2.1) fun b y b1 b2 => ?_
    have := opA_meets hW hW2 (o := o) a2 b2 (T := T) (by rw [a1, b1]; exact ht) (by rw [a1, b1]; exact hs.2.2 A B hA hB)
    rw [a1, b1] at this
    have e : (∃ A ∈ l.ty W Γ, ∃ B ∈ r.ty W Γ, NoNegation o A B y) ↔ NoNegation o A B y := by
      rw [hA, hB]
      simp
    simp only [e]
    exact this

/-- A comparison of any two operands one of which is bounded. -/
theorem relA_math (hW : 64 ≤ W) {a b : Arg} {x y : Int} (ha : ArgHolds W a x) (hb : ArgHolds W b y) (h : OneBounded (tyOf a) (tyOf b)) (c : Rel) :
    relA W c a b = some (.ok (c.math x y)) := by
  have tb := toB_holds hW hb
  have ta := toB_holds hW ha
  cases a with
  | bounded a => exact congrArg some (Rel.run_math hW ha tb.1 c)
  | builtin t v =>
    cases b with
    | builtin u w => exact h.elim
    | bounded b =>
      unfold relA
      dsimp only
      rw [Rel.run_math hW hb ta.1]
      congr 2
      cases c <;> simp only [flip, Rel.math, decide_eq_decide] <;> (try omega)

/-- A condition. -/
theorem condA_math (hW : 64 ≤ W) (hW2 : W ≤ 128) {Γ : Nat → GTy} {env : Nat → Arg} {m : Nat → Int} (henv : EnvA W Γ env m) (c : Rel) {l r : GExpr}
    (h : CondOk W Γ l r) : condA W env c l r = some (condM W Γ m c l r) := by
  obtain ⟨sl, sr, A, B, hA, hB, ho⟩ := h
  have el := C115_expression_partial hW hW2 henv l hA sl
  have er := C115_expression_partial hW hW2 henv r hB sr
  unfold condA condM
  cases hl : l.math W Γ m with
  | ub => rw [hl] at el; rw [show l.eval W env = some .ub from el]; rfl
  | exn => rw [hl] at el; rw [show l.eval W env = some .exn from el]; rfl
  | ok x =>
    rw [hl] at el
    obtain ⟨a, a1, a2, a3⟩ := el
    rw [a1]
    show after (r.eval W env) _ = some (r.math W Γ m >>= fun y => pure (c.math x y))
    cases hr : r.math W Γ m with
    | ub => rw [hr] at er; rw [show r.eval W env = some .ub from er]; rfl
    | exn => rw [hr] at er; rw [show r.eval W env = some .exn from er]; rfl
    | ok y =>
      rw [hr] at er
      obtain ⟨b, b1, b2, b3⟩ := er
      rw [b1]
      exact relA_math hW a3 b3 (by rw [a2, b2]; exact ho) c

/-- Assignment. -/
theorem assignA_meets (hW : 64 ≤ W) {a c : Arg} {x v : Int} (ha : ArgHolds W a x) (hc : ArgHolds W c v) (h : Assignable (tyOf a) (tyOf c)) :
    MeetsA W (tyOf a) (assignA W a c) (storeA (tyOf a) v) := by
  cases a with
  | bounded a =>
    have tc := toB_holds hW hc
    have h : Overlap a.rng (tyOf c).rng := h
    rw [rng_tyOf, ← tc.2] at h
    have ha : Holds W a x := ha
    have hne : Bounded.assign W a (c.toB W) ≠ none := by
      rw [Ne, C12_assign_rejected_iff hW ha tc.1, not_not]
      have w1 := ((wf_iff hW _).mp ha.1).1
      have w2 := ((wf_iff hW _).mp tc.1.1).1
      unfold Overlap at h
      exact ⟨Max.max a.rng.lo (c.toB W).rng.lo, by unfold Rng.Mem; omega, by unfold Rng.Mem; omega⟩
    have sp := assign_spec hW ha tc.1 hne
    show MeetsA W _ (ofB (Bounded.assign W a (c.toB W))) (if a.rng.lo ≤ v ∧ v ≤ a.rng.hi then .ok v else .ub)
    by_cases hin : a.rng.lo ≤ v ∧ v ≤ a.rng.hi
    · rw [if_pos hin]
      obtain ⟨d, d1, d2, d3⟩ := sp.1 hin
      rw [d1]
      exact ⟨.bounded d, rfl, by rw [tyOf, tyOf, d2], d3⟩
    · rw [if_neg hin, sp.2 hin]
      rfl
  | builtin t w =>
    cases c with
    | bounded c => exact h.elim
    | builtin u z =>
      have e : z = v := hc.2.2
      subst e
      exact ⟨_, rfl, rfl, ha.1, CTy.wrap_fits ha.1.1 z, wrap_eq_reduce ha.1.1 z⟩

theorem AgreeA.next {Γ : Nat → GTy} {r : GRun (Nat → Arg)} {q : GRun (Nat → Int)} {f : (Nat → Arg) → GRun (Nat → Arg)} {g : (Nat → Int) → GRun (Nat → Int)}
    (h : AgreeA W Γ r q) (hf : ∀ env m, EnvA W Γ env m → AgreeA W Γ (f env) (g m)) : AgreeA W Γ (r.next f) (q.next g) := by
  cases r <;> cases q <;> first | exact hf _ _ h | exact h | exact h.elim

theorem AgreeA.orElse {Γ : Nat → GTy} {r : GRun (Nat → Arg)} {q : GRun (Nat → Int)} {f : (Nat → Arg) → GRun (Nat → Arg)} {g : (Nat → Int) → GRun (Nat → Int)}
    (h : AgreeA W Γ r q) (hf : ∀ env m, EnvA W Γ env m → AgreeA W Γ (f env) (g m)) : AgreeA W Γ (r.orElse f) (q.orElse g) := by
  cases r <;> cases q <;> first | exact hf _ _ h | exact h | exact h.elim

theorem AgreeA.after {Γ : Nat → GTy} {T : GTy} {env : Nat → Arg} {m : Nat → Int} (henv : EnvA W Γ env m) {out : Option (Res Arg)} {s : Res Int}
    (h : MeetsA W T out s) {f : Arg → GRun (Nat → Arg)} {g : Int → GRun (Nat → Int)}
    (hf : ∀ c v, tyOf c = T → ArgHolds W c v → AgreeA W Γ (f c) (g v)) : AgreeA W Γ (.after env out f) (.after m (some s) g) := by
  cases s with
  | ok v =>
    obtain ⟨c, h1, h2, h3⟩ := h
    rw [h1]
    exact hf c v h2 h3
  | ub => rw [show out = some .ub from h]; trivial
  | exn => rw [show out = some .exn from h]; exact henv

/-- **C115**: a program over bounded and built-in variables runs as it would on mathematical integers, where only casts and assignments to built-in
variables reduce values: same branches, same rounds, same handlers, same values of all variables, also at every exception. It is undefined exactly when that
program is: a divisor is zero, a bounded variable is assigned a value outside of its range, or the least number of a signed type is subtracted.

Missing for the full claim: operands of the types that `opSafe` excludes, for which operators are wrong (C98, C68). -/
theorem C115_program_partial (hW : 64 ≤ W) (hW2 : W ≤ 128) {Γ : Nat → GTy} (n : Nat) (s : GStmt) (hs : s.Ok W Γ) :
    ∀ {env : Nat → Arg} {m : Nat → Int}, EnvA W Γ env m → AgreeA W Γ (s.exec W n env) (s.math W Γ n m) := by
  induction s with
  | skip => intro env m h; exact h
  | assign i e =>
    intro env m h
    obtain ⟨h1, A, h2, h3⟩ := hs
    refine AgreeA.after h (C115_expression_partial hW hW2 h e h2 h1) fun c v c1 c2 => ?_
    have hi := h i
    have key := assignA_meets hW hi.2 c2 (by rw [hi.1, c1]; exact h3)
    rw [hi.1] at key
    refine AgreeA.after h key fun d w d1 d2 => ?_
    intro k
    by_cases hk : k = i
    · subst hk; rw [upd_same, upd_same]; exact ⟨d1, d2⟩
    · rw [upd_other _ _ hk, upd_other _ _ hk]; exact h k
  | seq s t is it =>
    intro env m h
    exact (is hs.1 h).next fun env m h => it hs.2 h
  | catching s t is it =>
    intro env m h
    exact (is hs.1 h).orElse fun env m h => it hs.2 h
  | ite c l r s t is it =>
    intro env m h
    unfold GStmt.exec GStmt.math
    rw [condA_math hW hW2 h c hs.1]
    cases condM W Γ m c l r with
    | ub => trivial
    | exn => exact h
    | ok b => cases b with
      | true => exact is hs.2.1 h
      | false => exact it hs.2.2 h
  | loop c l r s is =>
    suffices H : ∀ k {env : Nat → Arg} {m : Nat → Int}, EnvA W Γ env m →
        AgreeA W Γ (roundsA (fun env => condA W env c l r) (s.exec W n) k env) (roundsA (fun m => some (condM W Γ m c l r)) (s.math W Γ n) k m) from
      fun {env m} h => H n h
    intro k
    induction k with
    | zero => intro env m h; trivial
    | succ k ik =>
      intro env m h
      unfold roundsA
      rw [condA_math hW hW2 h c hs.1]
      cases condM W Γ m c l r with
      | ub => trivial
      | exn => exact h
      | ok b => cases b with
        | true => exact (is hs.2 h).next fun env m h => ik h
        | false => exact h

/-- **C115**: it ends, with or without an exception, if and only if the program on mathematical integers does, and then with the same values. Nothing in it is
rejected. -/
theorem C115_same_end_partial (hW : 64 ≤ W) (hW2 : W ≤ 128) {Γ : Nat → GTy} (s : GStmt) (hs : s.Ok W Γ) {env : Nat → Arg} {m : Nat → Int}
    (h : EnvA W Γ env m) (n : Nat) :
    s.exec W n env ≠ .rejected ∧
    ((∃ env', s.exec W n env = .done env') ↔ ∃ m', s.math W Γ n m = .done m') ∧
    ((∃ env', s.exec W n env = .threw env') ↔ ∃ m', s.math W Γ n m = .threw m') ∧
    (s.exec W n env = .undef ↔ s.math W Γ n m = .undef) ∧
    ∀ env', s.exec W n env = .done env' ∨ s.exec W n env = .threw env' →
      ∃ m', (s.math W Γ n m = .done m' ∨ s.math W Γ n m = .threw m') ∧ ∀ i, (env' i).read = .ok (m' i) := by
  have key := C115_program_partial hW hW2 n s hs h
  have rd : ∀ (a : Arg) (x : Int), ArgHolds W a x → a.read = .ok x := by
    intro a x ha
    cases a with
    | bounded b => exact ha.2
    | builtin t v => show Res.ok v = _; rw [ha.2.2]
  cases hx : s.exec W n env <;> cases hm : s.math W Γ n m <;> rw [hx, hm] at key <;> first | exact key.elim | skip
  · refine ⟨by simp, by simp, by simp, by simp, ?_⟩
    rintro env' (e | e) <;> cases e
    exact ⟨_, .inl rfl, fun i => rd _ _ (key i).2⟩
  · refine ⟨by simp, by simp, by simp, by simp, ?_⟩
    rintro env' (e | e) <;> cases e
    exact ⟨_, .inr rfl, fun i => rd _ _ (key i).2⟩
  · exact ⟨by simp, by simp, by simp, by simp, by simp⟩
  · exact ⟨by simp, by simp, by simp, by simp, by simp⟩

/-- The types must be excluded: a bounded 5 minus the `unsigned` 1 compiles, and gives 2^32 + 4. -/
theorem C115_excluded_types_violated :
    (GExpr.bin .sub (.var 0) (.num ⟨false, 32⟩ 1)).ty 128 (fun _ => .bounded ⟨0, 10⟩) = some (.builtin ⟨false, 64⟩) ∧
    (GExpr.bin .sub (.var 0) (.num ⟨false, 32⟩ 1)).eval 128 (fun _ => .bounded ⟨⟨0, 10⟩, 5⟩) = some (.ok (.builtin ⟨false, 64⟩ 4294967300)) ∧
    (GExpr.bin .sub (.var 0) (.num ⟨false, 32⟩ 1)).math 128 (fun _ => .bounded ⟨0, 10⟩) (fun _ => 5) = .ok 4 := by
  decide +kernel

/-- An operator with two built-in operands is that of the language; there is no promise about it. -/
example : (GExpr.bin .add (.num intTy 1) (.num intTy 1)).ty 128 (fun _ => .bounded ⟨0, 10⟩) = none := by decide +kernel

/-- Subtracting the least `int` is undefined, although the difference would be in range. -/
example : (GExpr.bin .sub (.var 0) (.num intTy (-2147483648))).eval 128 (fun _ => .bounded ⟨⟨-9, 10⟩, -5⟩) = some .ub ∧
    (GExpr.bin .sub (.var 0) (.num intTy (-2147483648))).math 128 (fun _ => .bounded ⟨-9, 10⟩) (fun _ => -5) = .ub := by decide +kernel

/-- `unsigned char` counter, bounded accumulator. -/
def someTypes : Nat → GTy
  | 0 => .builtin ⟨false, 8⟩
  | _ => .bounded ⟨1, 1000⟩

/-- `while (n != 9_bi) { try { x = check_in_range<integer<1, 1000>>(x * n); } catch (...) { x = 7_bi; } n = n + 1_bi; }` -/
def someProgram : GStmt :=
  .loop .ne (.var 0) (.lit 9) (.seq
    (.catching (.assign 1 (.check ⟨1, 1000⟩ (.bin .mul (.var 1) (.var 0)))) (.assign 1 (.lit 7)))
    (.assign 0 (.bin .add (.var 0) (.lit 1))))

example : someProgram.Ok 128 someTypes := by
  refine ⟨⟨trivial, trivial, .builtin ⟨false, 8⟩, .bounded ⟨9, 9⟩, rfl, by decide +kernel, trivial⟩,
    ⟨⟨⟨by decide +kernel, trivial, trivial, ?_⟩, .bounded ⟨1, 1000⟩, by decide +kernel, ?_⟩, trivial, .bounded ⟨7, 7⟩, by decide +kernel, ?_⟩,
    ⟨trivial, trivial, ?_⟩, .builtin ⟨true, 16⟩, by decide +kernel, trivial⟩
  · intro A B hA hB
    cases hA; cases hB
    exact ⟨by decide +kernel, fun h => by cases h⟩
  · show Overlap _ _; unfold Overlap; decide +kernel
  · show Overlap _ _; unfold Overlap; decide +kernel
  · intro A B hA hB
    cases hA; cases hB
    exact ⟨trivial, trivial⟩

/-- 1, 2, 6, 24, 120, 720, then 5040 is thrown away for 7, and 56. -/
example : (match someProgram.exec 128 20 fun i => if i = 0 then .builtin ⟨false, 8⟩ 1 else .bounded ((Rng.mk 1 1000).unchecked 128 1) with
    | .done env => some ((env 0).read, (env 1).read)
    | _ => none) = some (.ok 9, .ok 56) := by decide +kernel

end Verif.Bounded.Both
