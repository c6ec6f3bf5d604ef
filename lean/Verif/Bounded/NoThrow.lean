import Verif.Bounded.Program
import Verif.Bounded.Mixed
import Verif.Bounded.Accumulate
import Verif.Bounded.MinMaxRef
import Verif.Bounded.ToString
import Verif.Bounded.LogPow
import Verif.Bounded.Tombstone

/-!
# Operators that do not throw, whatever they are given (C101)

The other properties are about operands that hold a value of their range. A bounded integer can also hold anything else: memory that was never written,
a value made with the `unchecked` constructor, the tombstone of an `optional`. Nothing is assumed about the operands here.
-/

namespace Verif.Bounded

open Verif

/-- Nothing was thrown. -/
def Quiet {α : Type} (r : Option (Res α)) : Prop := r ≠ some .exn

theorem quiet_none {α : Type} : Quiet (none : Option (Res α)) := fun h => by cases h

theorem quiet_some {α : Type} {r : Res α} (h : r ≠ .exn) : Quiet (some r) := fun e => h (Option.some.inj e)

theorem quiet_ite {α : Type} {c : Prop} [Decidable c] {a b : Option (Res α)} (ha : Quiet a) (hb : Quiet b) : Quiet (if c then a else b) := by
  split <;> assumption

theorem quiet_bind {α β : Type} {o : Option α} {f : α → Option (Res β)} (h : ∀ a, Quiet (f a)) : Quiet (o >>= f) := by
  cases o with
  | none => exact quiet_none
  | some a => exact h a

theorem ne_exn_bind {α β : Type} {r : Res α} {f : α → Res β} (hr : r ≠ .exn) (h : ∀ a, f a ≠ .exn) : (r >>= f) ≠ .exn := by
  cases r with
  | ok a => exact h a
  | ub => exact fun e => by cases e
  | exn => exact absurd rfl hr

theorem ne_exn_pure {α : Type} (a : α) : (pure a : Res α) ≠ .exn := fun e => by cases e

theorem value_ne_exn (b : BInt) : b.value ≠ .exn := by
  unfold BInt.value
  split_ifs <;> exact fun e => by cases e

theorem quiet_thenB {α : Type} {a : Option (Res BInt)} {f : BInt → Option (Res α)} (h : Quiet a) (hf : ∀ x, Quiet (f x)) : Quiet (thenB a f) := by
  unfold thenB
  rcases a with _ | ⟨x⟩ | _ | _
  · exact quiet_none
  · exact hf x
  · exact quiet_some (fun e => by cases e)
  · exact absurd rfl h

theorem arith_ne_exn (t : CTy) (r : Int) : t.arith r ≠ .exn := by
  unfold CTy.arith; split_ifs <;> exact fun e => by cases e

theorem cdiv_ne_exn (t : CTy) (a b : Int) : t.div a b ≠ .exn := by
  unfold CTy.div; split_ifs <;> exact fun e => by cases e

theorem cmod_ne_exn (t : CTy) (a b : Int) : t.mod a b ≠ .exn := by
  unfold CTy.mod; split_ifs <;> exact fun e => by cases e

theorem cshl_ne_exn (t : CTy) (a b : Int) : t.shl a b ≠ .exn := by
  unfold CTy.shl; split_ifs <;> exact fun e => by cases e

theorem cshr_ne_exn (t : CTy) (a b : Int) : t.shr a b ≠ .exn := by
  unfold CTy.shr; split_ifs <;> exact fun e => by cases e

theorem quiet_plus (W : Nat) (a b : BInt) : Quiet (plus W a b) :=
  quiet_bind fun _ => quiet_some (ne_exn_bind (value_ne_exn a) fun _ => ne_exn_bind (value_ne_exn b) fun _ => ne_exn_pure _)

theorem quiet_neg (W : Nat) (a : BInt) : Quiet (neg W a) :=
  quiet_bind fun _ => quiet_some (ne_exn_bind (value_ne_exn a) fun _ => ne_exn_pure _)

theorem quiet_minus (W : Nat) (a b : BInt) : Quiet (minus W a b) := by
  unfold minus
  cases h : neg W b with
  | none => exact quiet_none
  | some nb =>
    show Quiet (negTy W b.rng >>= _)
    refine quiet_bind fun _ => quiet_bind fun _ => quiet_some (ne_exn_bind (fun e => quiet_neg W b (e ▸ h)) fun c => ?_)
    cases hp : plus W a c with
    | none => exact fun e => by cases e
    | some r => exact fun e => quiet_plus W a c (by rw [hp]; exact congrArg some e)

theorem quiet_mul (W : Nat) (a b : BInt) : Quiet (mul W a b) :=
  quiet_bind fun _ => quiet_some (ne_exn_bind (value_ne_exn a) fun _ => ne_exn_bind (value_ne_exn b) fun _ => ne_exn_pure _)

theorem quiet_div (W : Nat) (a b : BInt) : Quiet (div W a b) :=
  quiet_bind fun _ => quiet_some (ne_exn_bind (value_ne_exn a) fun _ => ne_exn_bind (value_ne_exn b) fun _ => ne_exn_bind (cdiv_ne_exn _ _ _) fun _ => ne_exn_pure _)

theorem quiet_mod (W : Nat) (a b : BInt) : Quiet (mod W a b) :=
  quiet_bind fun _ => quiet_some (ne_exn_bind (value_ne_exn a) fun _ => ne_exn_bind (value_ne_exn b) fun _ => ne_exn_bind (cmod_ne_exn _ _ _) fun _ => ne_exn_pure _)

theorem quiet_shl (W : Nat) (a b : BInt) : Quiet (shl W a b) :=
  quiet_bind fun _ => quiet_some (ne_exn_bind (value_ne_exn a) fun _ => ne_exn_bind (value_ne_exn b) fun _ => ne_exn_bind (cshl_ne_exn _ _ _) fun _ => ne_exn_pure _)

theorem quiet_shr (W : Nat) (a b : BInt) : Quiet (shr W a b) :=
  quiet_bind fun _ => quiet_some (ne_exn_bind (value_ne_exn a) fun _ => ne_exn_bind (value_ne_exn b) fun _ => ne_exn_bind (cshr_ne_exn _ _ _) fun _ => ne_exn_pure _)

theorem quiet_bitAnd (W : Nat) (a b : BInt) : Quiet (bitAnd W a b) :=
  quiet_bind fun _ => quiet_some (ne_exn_bind (value_ne_exn a) fun _ => ne_exn_bind (value_ne_exn b) fun _ => ne_exn_pure _)

theorem compareB_ne_exn (W : Nat) (a b : BInt) : compareB W a b ≠ .exn := by
  unfold compareB
  split_ifs
  · exact fun e => by cases e
  · exact fun e => by cases e
  · exact ne_exn_bind (value_ne_exn a) fun _ => ne_exn_bind (value_ne_exn b) fun _ => ne_exn_pure _

theorem equalB_ne_exn (W : Nat) (a b : BInt) : equalB W a b ≠ .exn := by
  unfold equalB
  split_ifs
  · exact fun e => by cases e
  · exact ne_exn_bind (value_ne_exn a) fun _ => ne_exn_bind (value_ne_exn b) fun _ => ne_exn_pure _

theorem quiet_convert (W : Nat) (r : Rng) (b : BInt) : Quiet (convert W r b) := by
  unfold convert
  split_ifs
  · exact quiet_some (ne_exn_bind (value_ne_exn b) fun _ => ne_exn_pure _)
  · exact quiet_none

theorem quiet_assumeInRange (W : Nat) (v : BInt) (lo hi : Int) : Quiet (assumeInRange W v lo hi) := by
  have hi' : Quiet (assumeImpl W v lo hi) := by
    unfold assumeImpl
    refine quiet_bind fun _ => ?_
    split_ifs
    · exact quiet_some (ne_exn_bind (value_ne_exn v) fun _ => ne_exn_pure _)
    · exact quiet_none
  unfold assumeInRange
  generalize assumeImpl W v lo hi = a at hi'
  rcases a with _ | ⟨c⟩ | _ | _
  · exact quiet_none
  · refine quiet_some (ne_exn_bind (compareB_ne_exn _ _ _) fun o => ?_)
    split_ifs
    · exact fun e => by cases e
    · refine ne_exn_bind (compareB_ne_exn _ _ _) fun o => ?_
      split_ifs <;> exact fun e => by cases e
  · exact quiet_some (fun e => by cases e)
  · exact absurd rfl hi'

theorem quiet_assumeTarget (W : Nat) (r : Rng) (v : BInt) : Quiet (assumeTarget W r v) := by
  have h := quiet_assumeInRange W v r.lo r.hi
  unfold assumeTarget
  generalize assumeInRange W v r.lo r.hi = a at h
  rcases a with _ | ⟨c⟩ | _ | _
  · exact quiet_none
  · show Quiet (if c.rng = r then _ else _)
    split_ifs
    · exact quiet_some (fun e => by cases e)
    · exact quiet_convert W r c
  · exact quiet_some (fun e => by cases e)
  · exact absurd rfl h

theorem quiet_assign (W : Nat) (x other : BInt) : Quiet (assign W x other) := by
  have h := quiet_assumeInRange W other x.rng.lo x.rng.hi
  unfold assign
  split_ifs
  · exact quiet_some (fun e => by cases e)
  · exact quiet_none
  · refine quiet_some (ne_exn_bind (equalB_ne_exn _ _ _) fun o => ?_)
    cases o <;> exact fun e => by cases e
  · generalize assumeInRange W other x.rng.lo x.rng.hi = a at h
    rcases a with _ | ⟨c⟩ | _ | _
    · exact quiet_none
    · show Quiet (if c.rng = x.rng then _ else _)
      split_ifs
      · exact quiet_some (fun e => by cases e)
      · exact quiet_convert W x.rng c
    · exact quiet_some (fun e => by cases e)
    · exact absurd rfl h

/-- What all the functions that continue after an operation have in common. -/
theorem quiet_cases {α β : Type} {a : Option (Res α)} (h : Quiet a) {F : Option (Res β)} (h0 : a = none → F = none) (h1 : ∀ x, a = some (.ok x) → Quiet F)
    (h2 : a = some .ub → F = some .ub) : Quiet F := by
  rcases a with _ | ⟨x⟩ | _ | _
  · rw [h0 rfl]; exact quiet_none
  · exact h1 x rfl
  · rw [h2 rfl]; exact quiet_some (fun e => by cases e)
  · exact absurd rfl h

theorem quiet_compound {W : Nat} {op : Nat → BInt → BInt → Option (Res BInt)} {x y : BInt} (h : Quiet (op W x y)) : Quiet (compound W op x y) := by
  refine quiet_cases h (fun e => by rw [compound, e]; rfl) (fun c e => ?_) (fun e => by rw [compound, e]; rfl)
  rw [compound, e]
  exact quiet_assign W x c

theorem apply_ne_exn (W : Nat) (s : Cmp) (a b : BInt) : s.apply W a b ≠ .exn := by
  unfold Cmp.apply
  exact ne_exn_bind (compareB_ne_exn _ _ _) fun _ => ne_exn_pure _

theorem quiet_extreme2 (W : Nat) (s : Cmp) (lhs rhs : BInt) : Quiet (extreme2 W s lhs rhs) := by
  unfold extreme2
  refine quiet_bind fun r => ?_
  split_ifs
  · exact quiet_some (ne_exn_bind (apply_ne_exn _ _ _ _) fun _ => ne_exn_pure _)
  · exact quiet_some (fun e => by cases e)
  · exact quiet_some (fun e => by cases e)
  · refine quiet_some (ne_exn_bind (apply_ne_exn _ _ _ _) fun b => ?_)
    cases b
    · exact ne_exn_bind (value_ne_exn _) fun _ => ne_exn_pure _
    · exact ne_exn_bind (value_ne_exn _) fun _ => ne_exn_pure _

theorem quiet_extreme (W : Nat) (s : Cmp) : ∀ (t : BInt) (ts : List BInt), Quiet (extreme W s t ts)
  | _, [] => quiet_some (fun e => by cases e)
  | t, t2 :: ts => by
    refine quiet_cases (quiet_extreme2 W s t t2) (fun e => by rw [extreme, e]; rfl) (fun c e => ?_) (fun e => by rw [extreme, e]; rfl)
    rw [extreme, e]
    exact quiet_extreme W s c ts

theorem quiet_clamp (W : Nat) (value minimum maximum : BInt) : Quiet (clamp W value minimum maximum) := by
  refine quiet_cases (quiet_extreme W .greater value [minimum]) (fun e => by rw [clamp, e]; rfl) (fun c e => ?_) (fun e => by rw [clamp, e]; rfl)
  rw [clamp, e]
  exact quiet_extreme W _ c [maximum]

theorem quiet_abs (W : Nat) (value : BInt) : Quiet (abs W value) := by
  unfold abs
  split_ifs
  · exact quiet_some (fun e => by cases e)
  · exact quiet_neg W value
  · refine quiet_cases (quiet_neg W value) (fun e => by rw [e]; rfl) (fun n e => ?_) (fun e => by rw [e]; rfl)
    rw [e]
    refine quiet_cases (quiet_extreme W .greater value [n]) (fun e => ?_) (fun m e => ?_) (fun e => ?_)
    · show (extreme W .greater value [n] >>= _) = none
      rw [e]; rfl
    · show Quiet (extreme W .greater value [n] >>= _)
      rw [e]
      show Quiet (increaseMinUnchecked W 0 m)
      exact quiet_bind fun _ => quiet_some (ne_exn_bind (value_ne_exn m) fun _ => ne_exn_pure _)
    · show (extreme W .greater value [n] >>= _) = _
      rw [e]; rfl

theorem quiet_roundUpDivide (W : Nat) (lhs rhs : BInt) : Quiet (roundUpDivide W lhs rhs) := by
  refine quiet_cases (quiet_plus W lhs rhs) (fun e => by rw [roundUpDivide, e]; rfl) (fun n e => ?_) (fun e => by rw [roundUpDivide, e]; rfl)
  rw [roundUpDivide, e]
  refine quiet_cases (quiet_minus W n ⟨⟨1, 1⟩, 1⟩) (fun e => ?_) (fun m e => ?_) (fun e => ?_)
  · show (minus W n _ >>= _) = none
    rw [e]; rfl
  · show Quiet (minus W n _ >>= _)
    rw [e]
    exact quiet_div W m rhs
  · show (minus W n _ >>= _) = _
    rw [e]; rfl

theorem quiet_op2 (W : Nat) (a b : BInt) : ∀ o : Op2, Quiet (o.run W a b)
  | .add => quiet_plus W a b
  | .sub => quiet_minus W a b
  | .mul => quiet_mul W a b
  | .div => quiet_div W a b
  | .mod => quiet_mod W a b
  | .min => quiet_extreme W _ a [b]
  | .max => quiet_extreme W _ a [b]
  | .shl => quiet_shl W a b
  | .shr => quiet_shr W a b
  | .band => quiet_bitAnd W a b

theorem quiet_node {op : BInt → BInt → Option (Res BInt)} {l r : Option (Res BInt)} (hl : Quiet l) (hr : Quiet r) (h : ∀ a b, Quiet (op a b)) : Quiet (node op l r) := by
  rcases l with _ | ⟨a⟩ | _ | _
  · rcases r with _ | ⟨b⟩ | _ | _ <;> exact quiet_none
  · rcases r with _ | ⟨b⟩ | _ | _
    · exact quiet_none
    · exact h a b
    · exact quiet_some (fun e => by cases e)
    · exact absurd rfl hr
  · rcases r with _ | ⟨b⟩ | _ | _
    · exact quiet_none
    all_goals exact quiet_some (fun e => by cases e)
  · exact absurd rfl hl

theorem quiet_unary {op : BInt → Option (Res BInt)} {e : Option (Res BInt)} (he : Quiet e) (h : ∀ a, Quiet (op a)) : Quiet (unary op e) := by
  rcases e with _ | ⟨a⟩ | _ | _
  · exact quiet_none
  · exact h a
  · exact quiet_some (fun e => by cases e)
  · exact absurd rfl he

theorem quiet_expr (W : Nat) (env : Nat → BInt) : ∀ e : PExpr, Quiet (e.eval W env)
  | .var _ => quiet_some (fun e => by cases e)
  | .lit _ => quiet_some (fun e => by cases e)
  | .pos e => quiet_unary (quiet_expr W env e) fun _ => quiet_some (fun e => by cases e)
  | .conv T e => quiet_unary (quiet_expr W env e) (quiet_convert W T)
  | .assume T e => quiet_unary (quiet_expr W env e) fun a => quiet_assumeInRange W a T.lo T.hi
  | .neg e => quiet_unary (quiet_expr W env e) (quiet_neg W)
  | .abs e => quiet_unary (quiet_expr W env e) (quiet_abs W)
  | .bin o l r => quiet_node (quiet_expr W env l) (quiet_expr W env r) fun a b => quiet_op2 W a b o

theorem rel_ne_exn (W : Nat) (a b : BInt) (c : Rel) : c.run W a b ≠ .exn := by
  cases c
  case eq => exact equalB_ne_exn W a b
  case ne => exact ne_exn_bind (equalB_ne_exn W a b) fun _ => ne_exn_pure _
  all_goals exact ne_exn_bind (compareB_ne_exn W a b) fun _ => ne_exn_pure _

theorem quiet_cond (W : Nat) (env : Nat → BInt) : ∀ c : Cond, Quiet (c.eval W env)
  | .rel c l r => by
    have hl := quiet_expr W env l
    have hr := quiet_expr W env r
    rw [Cond.eval]
    generalize l.eval W env = l at hl
    generalize r.eval W env = r at hr
    rcases l with _ | ⟨a⟩ | _ | _
    · rcases r with _ | ⟨b⟩ | _ | _ <;> exact quiet_none
    · rcases r with _ | ⟨b⟩ | _ | _
      · exact quiet_none
      · exact quiet_some (rel_ne_exn W a b c)
      · exact quiet_some (fun e => by cases e)
      · exact absurd rfl hr
    · rcases r with _ | ⟨b⟩ | _ | _
      · exact quiet_none
      all_goals exact quiet_some (fun e => by cases e)
    · exact absurd rfl hl
  | .not c => by
    have h := quiet_cond W env c
    rw [Cond.eval]
    generalize c.eval W env = r at h
    rcases r with _ | ⟨a⟩ | _ | _
    · exact quiet_none
    · exact quiet_some (fun e => by cases e)
    · exact quiet_some (fun e => by cases e)
    · exact absurd rfl h
  | .and c d => by
    have h := quiet_cond W env c
    have hd := quiet_cond W env d
    rw [Cond.eval]
    generalize c.eval W env = r at h
    rcases r with _ | ⟨_ | _⟩ | _ | _
    all_goals first | exact hd | exact h
  | .or c d => by
    have h := quiet_cond W env c
    have hd := quiet_cond W env d
    rw [Cond.eval]
    generalize c.eval W env = r at h
    rcases r with _ | ⟨_ | _⟩ | _ | _
    all_goals first | exact hd | exact h

theorem after_ne_threw {α σ : Type} {r : Option (Res α)} {f : α → Run σ} (h : Quiet r) (hf : ∀ a, f a ≠ .threw) : Run.after r f ≠ .threw := by
  rcases r with _ | ⟨a⟩ | _ | _
  · exact fun e => by cases e
  · exact hf a
  · exact fun e => by cases e
  · exact absurd rfl h

theorem next_ne_threw {σ τ : Type} {r : Run σ} {f : σ → Run τ} (h : r ≠ .threw) (hf : ∀ a, f a ≠ .threw) : r.next f ≠ .threw := by
  cases r with
  | done s => exact hf s
  | threw => exact absurd rfl h
  | _ => exact fun e => by cases e

theorem rounds_ne_threw {σ : Type} {cond : σ → Run Bool} {body : σ → Run σ} (hc : ∀ s, cond s ≠ .threw) (hb : ∀ s, body s ≠ .threw) : ∀ (n : Nat) (s : σ), rounds cond body n s ≠ .threw
  | 0, _ => fun e => by cases e
  | n + 1, s => by
    rw [rounds]
    refine next_ne_threw (hc s) fun b => ?_
    split_ifs
    · exact next_ne_threw (hb s) (rounds_ne_threw hc hb n)
    · exact fun e => by cases e

/-! ## The theorems -/

/-- **C101**: no operator on bounded integers throws, nor does the corresponding compound assignment, whatever the operands hold. -/
theorem C101_operators (W : Nat) (a b : BInt) (o : Op2) : o.run W a b ≠ some .exn ∧ compound W (fun W => o.run W) a b ≠ some .exn :=
  ⟨quiet_op2 W a b o, quiet_compound (op := fun W => o.run W) (quiet_op2 W a b o)⟩

/-- Nor does a function that is not meant to check anything. -/
theorem C101_functions (W : Nat) (a b c : BInt) (r : Rng) (ts : List BInt) (s : Cmp) : neg W a ≠ some .exn ∧ abs W a ≠ some .exn ∧ clamp W a b c ≠ some .exn ∧
    extreme W s a ts ≠ some .exn ∧ roundUpDivide W a b ≠ some .exn ∧ convert W r a ≠ some .exn ∧ assign W a b ≠ some .exn ∧ assumeTarget W r a ≠ some .exn ∧
    compareB W a b ≠ .exn ∧ equalB W a b ≠ .exn :=
  ⟨quiet_neg W a, quiet_abs W a, quiet_clamp W a b c, quiet_extreme W s a ts, quiet_roundUpDivide W a b, quiet_convert W r a, quiet_assign W a b, quiet_assumeTarget W r a,
    compareB_ne_exn W a b, equalB_ne_exn W a b⟩

/-- No program throws, even one that reads variables that were never written. -/
theorem C101_program (W n : Nat) : ∀ (s : Stmt) (env : Nat → BInt), s.exec W n env ≠ .threw
  | .skip, _ => fun e => by cases e
  | .assign i e, env => after_ne_threw (quiet_expr W env e) fun v => after_ne_threw (quiet_assign W (env i) v) fun _ => fun e => by cases e
  | .update o i e, env => after_ne_threw (quiet_expr W env e) fun v => after_ne_threw (quiet_compound (op := fun W => o.run W) (quiet_op2 W _ _ o)) fun _ => fun e => by cases e
  | .seq s t, env => next_ne_threw (C101_program W n s env) (C101_program W n t)
  | .ite c s t, env => after_ne_threw (quiet_cond W env c) fun b => by
    split_ifs
    · exact C101_program W n s env
    · exact C101_program W n t env
  | .loop c s, env => rounds_ne_threw (fun env => after_ne_threw (quiet_cond W env c) fun _ => fun e => by cases e) (C101_program W n s) n env

/-! ## Operands that hold no value of their type -/

theorem ok_of_bind2 {α : Type} {a b : BInt} {f : Int → Int → Res α} {c : α} (h : (a.value >>= fun x => b.value >>= fun y => f x y) = .ok c) :
    ∃ x y, a.value = .ok x ∧ b.value = .ok y := by
  obtain ⟨x, hx, h⟩ := ok_bind_eq h
  obtain ⟨y, hy, -⟩ := ok_bind_eq h
  exact ⟨x, y, hx, hy⟩

theorem ok_of_some_bind {α β : Type} {o : Option α} {f : α → Res β} {c : β} (h : (o >>= fun p => some (f p)) = some (.ok c)) : ∃ p, f p = .ok c := by
  cases o with
  | none => cases h
  | some p => exact ⟨p, Option.some.inj h⟩

/-- An operator that gives a result has read both operands. `min` and `max` need not read operands whose types decide. -/
theorem Op2.run_strict {W : Nat} {a b c : BInt} {o : Op2} (ho : o ≠ .min) (ho' : o ≠ .max) (h : o.run W a b = some (.ok c)) : ∃ x y, a.value = .ok x ∧ b.value = .ok y := by
  have plus_strict : ∀ {a b c : BInt}, plus W a b = some (.ok c) → ∃ x y, a.value = .ok x ∧ b.value = .ok y := fun h => by
    obtain ⟨p, h⟩ := ok_of_some_bind h
    exact ok_of_bind2 h
  cases o with
  | add => exact plus_strict h
  | sub =>
    have h : minus W a b = some (.ok c) := h
    unfold minus at h
    cases hn : neg W b with
    | none => rw [hn] at h; cases h
    | some nb =>
      rw [hn] at h
      cases ht : negTy W b.rng with
      | none => rw [ht] at h; cases h
      | some nt =>
        rw [ht] at h
        obtain ⟨p, h⟩ := ok_of_some_bind h
        obtain ⟨n, e, h2⟩ := ok_bind_eq h
        subst e
        obtain ⟨q, hq⟩ := ok_of_some_bind hn
        obtain ⟨y, hy, -⟩ := ok_bind_eq hq
        cases hp : plus W a n with
        | none => rw [hp] at h2; cases h2
        | some r =>
          rw [hp] at h2
          cases (show r = .ok c from h2)
          obtain ⟨x, -, hx, -⟩ := plus_strict hp
          exact ⟨x, y, hx, hy⟩
  | min => exact absurd rfl ho
  | max => exact absurd rfl ho'
  | _ =>
    obtain ⟨p, h⟩ := ok_of_some_bind h
    exact ok_of_bind2 h

/-- If an operator gives a result at all, then its operands held values of their types and the result is the mathematical one: nothing wrong is made out of
memory that was never written. -/
theorem C101_result (hW : 64 ≤ W) (hW2 : W ≤ 128) {o : Op2} (ho : o ≠ .min) (ho' : o ≠ .max) {a b c : BInt} (hA : a.rng.Wf W) (hB : b.rng.Wf W) (hs : o.Safe W a.rng b.rng)
    (hty : o.ty W a.rng b.rng ≠ none) (h : o.run W a b = some (.ok c)) :
    ∃ x y z, a.value = .ok x ∧ b.value = .ok y ∧ o.math x y = some z ∧ c.value = .ok z := by
  obtain ⟨x, y, hx, hy⟩ := Op2.run_strict ho ho' h
  have := (C98_operator_exactly hW hW2 o hA hB).2 ⟨hty, hs⟩ a b x y ⟨hA, hx⟩ ⟨hB, hy⟩ rfl rfl
  cases hm : o.math x y with
  | none => rw [hm] at this; rw [h] at this; cases this
  | some z =>
    rw [hm] at this
    obtain ⟨c', e, -, hc⟩ := this
    rw [h] at e
    cases e
    exact ⟨x, y, z, hx, hy, hm, hc.2⟩

/-- If one operand holds no value of its type, the operator is undefined. -/
theorem C101_invalid_operand (W : Nat) {o : Op2} (ho : o ≠ .min) (ho' : o ≠ .max) {a b : BInt} (h : a.value = .ub ∨ b.value = .ub) :
    o.run W a b = none ∨ o.run W a b = some .ub := by
  rcases hr : o.run W a b with _ | ⟨c⟩ | _ | _
  · exact .inl rfl
  · obtain ⟨x, y, hx, hy⟩ := Op2.run_strict ho ho' hr
    rcases h with h | h
    · rw [hx] at h; cases h
    · rw [hy] at h; cases h
  · exact .inr rfl
  · exact absurd hr (quiet_op2 W a b o)

/-- `min` may return an operand that it need not read: with separate ranges the invalid operand is not noticed. -/
theorem C101_invalid_minimum_violated : ∃ a b c : BInt, a.value = .ub ∧ b.value = .ok 20 ∧ Op2.run 128 .min a b = some (.ok c) ∧ c.value = .ub :=
  ⟨⟨⟨0, 10⟩, 15⟩, ⟨⟨20, 30⟩, 20⟩, ⟨⟨0, 10⟩, 15⟩, by decide +kernel⟩

/-- Checking an operand that holds no value of its type does not throw, it is undefined. -/
theorem C101_invalid_check (W : Nat) {v lo hi : Arg} {r : Rng} {t : CTy} (h : v.read = .ub) :
    (checkInRange W v lo hi = none ∨ checkInRange W v lo hi = some .ub) ∧ (checkInRangeTarget W r v = none ∨ checkInRangeTarget W r v = some .ub) ∧
    (checkInRangeBuiltin W t v = none ∨ checkInRangeBuiltin W t v = some .ub) := by
  have key : ∀ lo hi, checkInRange W v lo hi = none ∨ checkInRange W v lo hi = some .ub := by
    intro lo hi
    have : assumeImplArg W v lo hi = none ∨ assumeImplArg W v lo hi = some .ub := by
      unfold assumeImplArg
      cases mkInteger W (safeMax W lo.rng.lo v.rng.lo) (safeMin W hi.rng.hi v.rng.hi) with
      | none => exact .inl rfl
      | some q =>
        rw [h]
        show (if v.rng.overlaps W q then _ else _) = none ∨ (if v.rng.overlaps W q then _ else _) = _
        split_ifs
        · exact .inr rfl
        · exact .inl rfl
    unfold checkInRange
    rcases this with e | e
    · rw [e]; exact .inl rfl
    · rw [e]; exact .inr rfl
  refine ⟨key lo hi, ?_, ?_⟩
  · unfold checkInRangeTarget
    rcases key (.bounded (constB r.lo)) (.bounded (constB r.hi)) with e | e
    · rw [e]; exact .inl rfl
    · rw [e]; exact .inr rfl
  · unfold checkInRangeBuiltin
    rcases key (.builtin t t.lo) (.builtin t t.hi) with e | e
    · rw [e]; exact .inl rfl
    · rw [e]; exact .inr rfl

theorem quiet_mixed {W : Nat} {op : Nat → BInt → BInt → Option (Res BInt)} {l r : Arg} (h : Quiet (op W (l.toB W) (r.toB W))) : Quiet (mixed W op l r) := by
  refine quiet_cases h (fun e => by rw [mixed, e]; rfl) (fun c e => ?_) (fun e => by rw [mixed, e]; rfl)
  rw [mixed, e]
  exact quiet_some (ne_exn_bind (value_ne_exn c) fun _ => ne_exn_pure _)

/-- Operators that mix bounded and built-in integers do not throw either. -/
theorem C101_mixed (W : Nat) (o : Op2) (l r : Arg) (a : BInt) (t : CTy) (v : Int) : mixed W (fun W => o.run W) l r ≠ some .exn ∧
    compoundBuiltin W (fun W => o.run W) t v a ≠ some .exn ∧ compoundMixed W (fun W => o.run W) a r ≠ some .exn ∧ minusBuiltin W a t v ≠ some .exn ∧
    minusFromBuiltin W t v a ≠ some .exn ∧ (∀ n, byteShl n a ≠ some .exn ∧ byteShr n a ≠ some .exn) := by
  have hm : ∀ l r, Quiet (mixed W (fun W => o.run W) l r) := fun l r => quiet_mixed (op := fun W => o.run W) (quiet_op2 W _ _ o)
  refine ⟨hm l r, ?_, ?_, ?_, ?_, fun n => ⟨?_, ?_⟩⟩
  · refine quiet_cases (hm (.builtin t v) (.bounded a)) (fun e => by rw [compoundBuiltin, e]; rfl) (fun c e => ?_) (fun e => by rw [compoundBuiltin, e]; rfl)
    rw [compoundBuiltin, e]
    exact quiet_some (fun e => by cases e)
  · refine quiet_cases (hm (.bounded a) r) (fun e => by rw [compoundMixed, e]; rfl) (fun c e => ?_) (fun e => by rw [compoundMixed, e]; rfl)
    rw [compoundMixed, e]
    exact quiet_assign W a _
  · unfold minusBuiltin
    have : builtinNeg t v ≠ .exn := ne_exn_bind (arith_ne_exn _ _) fun _ => ne_exn_pure _
    rcases hb : builtinNeg t v with ⟨u, n⟩ | _ | _
    · exact quiet_mixed (quiet_plus W _ _)
    · exact quiet_some (fun e => by cases e)
    · exact absurd hb this
  · refine quiet_cases (quiet_neg W a) (fun e => by rw [minusFromBuiltin, e]; rfl) (fun c e => ?_) (fun e => by rw [minusFromBuiltin, e]; rfl)
    rw [minusFromBuiltin, e]
    exact quiet_mixed (quiet_plus W _ _)
  · unfold byteShl
    split_ifs
    · exact quiet_none
    · exact quiet_some (ne_exn_bind (value_ne_exn a) fun _ => ne_exn_bind (cshl_ne_exn _ _ _) fun _ => ne_exn_pure _)
  · unfold byteShr
    split_ifs
    · exact quiet_none
    · exact quiet_some (ne_exn_bind (value_ne_exn a) fun _ => ne_exn_bind (cshr_ne_exn _ _ _) fun _ => ne_exn_pure _)

theorem quiet_extremeRef2 (W : Nat) (binds : Bool) (s : Cmp) (lhs rhs : Glvalue BInt) : Quiet (extremeRef2 W binds s lhs rhs) := by
  unfold extremeRef2
  refine quiet_bind fun r => ?_
  split_ifs
  · exact quiet_some (ne_exn_bind (apply_ne_exn _ _ _ _) fun _ => ne_exn_pure _)
  · exact quiet_some (fun e => by cases e)
  · exact quiet_some (fun e => by cases e)
  · refine quiet_some (ne_exn_bind (apply_ne_exn _ _ _ _) fun b => ?_)
    cases b
    · exact ne_exn_bind (value_ne_exn _) fun _ => ne_exn_pure _
    · exact ne_exn_bind (value_ne_exn _) fun _ => ne_exn_pure _

theorem quiet_extremeRef (W : Nat) (binds : Bool) (s : Cmp) : ∀ (t : Glvalue BInt) (ts : List (Glvalue BInt)), Quiet (extremeRef W binds s t ts)
  | _, [] => quiet_some (fun e => by cases e)
  | t, [t2] => quiet_extremeRef2 W binds s t t2
  | t, t2 :: t3 :: ts => by
    refine quiet_cases (quiet_extremeRef2 W binds s t t2) (fun e => by rw [extremeRef, e]; rfl) (fun c e => ?_) (fun e => by rw [extremeRef, e]; rfl)
    rw [extremeRef, e]
    exact quiet_extremeRef W binds s c.operand (t3 :: ts)

/-- `min` and `max` that give references. -/
theorem C101_references (W : Nat) (binds : Bool) (s : Cmp) (t : Glvalue BInt) (ts : List (Glvalue BInt)) : extremeRef W binds s t ts ≠ some .exn ∧ extremeUse W binds s t ts ≠ some .exn := by
  refine ⟨quiet_extremeRef W binds s t ts, ?_⟩
  refine quiet_cases (quiet_extremeRef W binds s t ts) (fun e => by rw [extremeUse, e]; rfl) (fun c e => ?_) (fun e => by rw [extremeUse, e]; rfl)
  rw [extremeUse, e]
  refine quiet_some ?_
  cases c with
  | ref g => unfold Result.use; dsimp only; split_ifs <;> exact fun e => by cases e
  | value v => exact fun e => by cases e

theorem powSquare_ne_exn (M : Nat) : ∀ (base exponent : Nat), powSquare M base exponent ≠ .exn := by
  intro base exponent
  induction exponent using Nat.strong_induction_on generalizing base with
  | _ e ih =>
    rw [powSquare]
    split_ifs with h1 h2
    · exact ih _ (by omega) _
    · exact fun e => by cases e
    · exact fun e => by cases e

theorem powMul_ne_exn (M base : Nat) : ∀ n r, powMul M base n r ≠ .exn
  | 0, _ => fun e => by cases e
  | n + 1, r => by
    rw [powMul]
    split_ifs
    · exact powMul_ne_exn M base n _
    · exact fun e => by cases e

theorem powImpl_ne_exn (M base exponent : Nat) : powImpl M base exponent ≠ .exn := by
  unfold powImpl
  split_ifs
  · exact fun e => by cases e
  · exact fun e => by cases e
  · exact ne_exn_bind (powSquare_ne_exn _ _ _) fun p => powMul_ne_exn _ _ _ _

theorem quiet_pow (W : Nat) (base exponent : BInt) : Quiet (pow W base exponent) := by
  unfold pow
  refine quiet_ite quiet_none (quiet_ite quiet_none ?_)
  · generalize powImpl (2 ^ W) ((umax W).wrap base.rng.lo).toNat ((umax W).wrap exponent.rng.lo).toNat = p
    generalize powImpl (2 ^ W) ((umax W).wrap base.rng.hi).toNat ((umax W).wrap exponent.rng.hi).toNat = q
    rcases p with p | _ | _ <;> rcases q with q | _ | _
    · exact quiet_bind fun _ => quiet_some (ne_exn_bind (value_ne_exn _) fun _ => ne_exn_bind (value_ne_exn _) fun _ => ne_exn_bind (powImpl_ne_exn _ _ _) fun _ => ne_exn_pure _)
    all_goals exact quiet_none

theorem quiet_log (W : Nat) (bw : Bool) (value base : BInt) : Quiet (log W bw value base) := by
  unfold log
  refine quiet_ite quiet_none (quiet_ite quiet_none (quiet_bind fun r => ?_))
  refine quiet_ite quiet_none (quiet_ite ?_ ?_)
  · refine quiet_some (ne_exn_bind (value_ne_exn _) fun _ => ne_exn_bind (equalB_ne_exn _ _ _) fun b => ?_)
    cases b <;> exact ne_exn_pure _
  · exact quiet_some (ne_exn_bind (value_ne_exn _) fun _ => ne_exn_bind (value_ne_exn _) fun _ => ne_exn_pure _)

theorem quiet_safeLog (W : Nat) (bw neg1 : Bool) (base value : Int) : Quiet (safeLog W bw neg1 base value) := by
  unfold safeLog
  split_ifs
  · exact quiet_some (fun e => by cases e)
  · exact quiet_log _ _ _ _
  · exact quiet_thenB (quiet_neg _ _) fun _ => quiet_thenB (quiet_log _ _ _ _) fun _ => quiet_plus _ _ _
  · exact quiet_thenB (quiet_neg _ _) fun _ => quiet_thenB (quiet_log _ _ _ _) fun _ => quiet_plus _ _ _

/-- Powers, logarithms and numbers of digits. -/
theorem C101_pow_log_digits (W : Nat) (bw : Bool) (a b : BInt) (lo hi base : Int) : pow W a b ≠ some .exn ∧ log W bw a b ≠ some .exn ∧ limitsDigits W bw lo hi base ≠ some .exn ∧
    digitsInString W bw base lo hi ≠ some .exn ∧ representationBits W bw lo hi ≠ some .exn := by
  have hd : ∀ neg1 base, Quiet (digitsImpl W bw neg1 base lo hi) := fun neg1 base =>
    quiet_thenB (quiet_safeLog _ _ _ _ _) fun _ => quiet_thenB (quiet_safeLog _ _ _ _ _) fun _ => quiet_thenB (quiet_extreme _ _ _ _) fun _ =>
      quiet_thenB (quiet_plus _ _ _) fun _ => quiet_plus _ _ _
  refine ⟨quiet_pow W a b, quiet_log W bw a b, ?_, hd true base, hd false 2⟩
  unfold limitsDigits
  refine quiet_ite quiet_none (quiet_ite (quiet_some (fun e => by cases e)) (quiet_ite (quiet_ite (quiet_some (fun e => by cases e)) (quiet_log _ _ _ _)) ?_))
  refine quiet_thenB (quiet_neg _ _) fun n => quiet_ite ?_ ?_
  · exact quiet_thenB (quiet_plus _ _ _) fun _ => quiet_log _ _ _ _
  · exact quiet_thenB (quiet_plus _ _ _) fun _ => quiet_log _ _ _ _

/-- Sums and products. -/
theorem C101_accumulate (W : Nat) (r v : Rng) (n : Int) (vs : List BInt) : sumTo W r vs ≠ some .exn ∧ sum W v n vs ≠ some .exn ∧ productTo W r vs ≠ some .exn ∧
    product W v n vs ≠ some .exn := by
  have loop : ∀ {op : BInt → BInt → Option (Res BInt)} (_ : ∀ a b, Quiet (op a b)) (r : Rng) (vs : List BInt) (x : BInt), Quiet (accumulateLoop W op r x vs) := by
    intro op hop r vs
    induction vs with
    | nil => exact fun _ => quiet_some (fun e => by cases e)
    | cons v vs ih => exact fun x => quiet_thenB (quiet_thenB (hop x v) fun c => quiet_assumeTarget W r c) ih
  have acc : ∀ {op : BInt → BInt → Option (Res BInt)} (_ : ∀ a b, Quiet (op a b)) (r : Rng) (x : BInt) (vs : List BInt), Quiet (accumulate W op r x vs) :=
    fun hop r x vs => quiet_thenB (quiet_convert W r x) fun _ => loop hop r vs _
  exact ⟨acc (quiet_plus W) r _ vs, quiet_bind fun _ => acc (quiet_plus W) _ _ vs, acc (quiet_mul W) r _ vs, quiet_bind fun _ => acc (quiet_mul W) _ _ vs⟩

/-- Tombstones. -/
theorem C101_tombstones (W : Nat) (r : Rng) (i : Int) (b : BInt) : tombMake W r i ≠ some .exn ∧ tombIndex W b ≠ some .exn := by
  refine ⟨quiet_thenB (quiet_minus _ _ _) fun _ => quiet_thenB (quiet_plus _ _ _) fun _ => quiet_thenB (quiet_minus _ _ _) fun _ => quiet_thenB (quiet_plus _ _ _) fun _ =>
    quiet_thenB (quiet_plus _ _ _) fun _ => quiet_some (ne_exn_bind (compareB_ne_exn _ _ _) fun _ => ne_exn_bind (value_ne_exn _) fun _ => ne_exn_pure _), ?_⟩
  refine quiet_thenB (quiet_minus _ _ _) fun _ => quiet_thenB (quiet_minus _ _ _) fun _ => quiet_thenB (quiet_plus _ _ _) fun _ => quiet_thenB (quiet_minus _ _ _) fun _ =>
    quiet_thenB (quiet_minus _ _ _) fun _ => ?_
  have hc : ∀ c x y, Quiet (conditionalB W c x y) := fun c x y => quiet_bind fun _ => quiet_convert _ _ _
  split
  · refine quiet_thenB (hc _ _ _) fun _ => quiet_thenB (hc _ _ _) fun result => quiet_thenB (quiet_thenB (quiet_minus _ _ _) fun _ => quiet_thenB (quiet_minus _ _ _) fun _ =>
      quiet_thenB (quiet_plus _ _ _) fun _ => quiet_minus _ _ _) fun m => quiet_bind fun it => ?_
    refine quiet_cases (quiet_assumeInRange W result it.lo it.hi) (fun e => by rw [e]; rfl) (fun c e => ?_) (fun e => by rw [e]; rfl)
    rw [e]
    show Quiet (if c.rng = it then _ else _)
    split_ifs
    · exact quiet_some (fun e => by cases e)
    · exact quiet_convert _ _ _
  · exact quiet_some (fun e => by cases e)

/-- Conversion to a string. -/
theorem C101_to_string (W : Nat) (x : BInt) : toAnyString W x ≠ some .exn := by
  have loop : ∀ (n : Nat) (x : BInt) (acc : List Int), Quiet (toStringLoop W n x acc) := by
    intro n
    induction n with
    | zero => exact fun _ _ => quiet_some (fun e => by cases e)
    | succ n ih =>
      intro x acc
      refine quiet_thenB (quiet_mod _ _ _) fun m => quiet_thenB (quiet_plus _ _ _) fun ch => quiet_thenB (quiet_compound (quiet_div _ _ _)) fun x' => ?_
      have h1 := compareB_ne_exn W x' (constB 0)
      have h2 := value_ne_exn ch
      generalize compareB W x' (constB 0) = p at h1
      generalize ch.value = q at h2
      rcases p with p | _ | _
      · rcases q with q | _ | _
        · show Quiet (if p = .gt then _ else _)
          split_ifs
          · exact ih _ _
          · exact quiet_some (fun e => by cases e)
        · exact quiet_some (fun e => by cases e)
        · exact absurd rfl h2
      · exact quiet_some (fun e => by cases e)
      · exact absurd rfl h1
  refine quiet_thenB (quiet_abs W x) fun a => quiet_thenB (quiet_bind fun _ => quiet_convert _ _ _) fun z => ?_
  rcases compareB W x (constB 0) with p | _ | _ <;> rcases z.value with q | _ | _
  · refine quiet_cases (loop (q.toNat + 1) z []) (fun e => ?_) (fun s e => ?_) (fun e => ?_)
    · dsimp only; rw [e]; rfl
    · dsimp only; rw [e]; exact quiet_some (fun e => by cases e)
    · dsimp only; rw [e]; rfl
  all_goals exact quiet_some (fun e => by cases e)

/-! ## The hypotheses can be met -/

/-- An addition and a division that give a result, as `C101_result` needs it. -/
example : (⟨0, 10⟩ : Rng).Wf 128 ∧ (⟨2, 3⟩ : Rng).Wf 128 ∧ Op2.Safe 128 ⟨0, 10⟩ ⟨2, 3⟩ .add ∧ Op2.ty 128 ⟨0, 10⟩ ⟨2, 3⟩ .add ≠ none ∧
    ∃ c, Op2.run 128 .add ⟨⟨0, 10⟩, 7⟩ ⟨⟨2, 3⟩, 2⟩ = some (.ok c) ∧ c.value = .ok 9 := by
  refine ⟨by decide +kernel, by decide +kernel, trivial, by decide +kernel, ⟨⟨2, 13⟩, 9⟩, by decide +kernel⟩

/-- Operands that hold no value of their type, as `C101_invalid_operand` and `C101_invalid_check` need them: adding and checking them is undefined. -/
example : (⟨⟨0, 10⟩, 15⟩ : BInt).value = .ub ∧ Op2.run 128 .add ⟨⟨0, 10⟩, 15⟩ ⟨⟨2, 3⟩, 2⟩ = some .ub ∧
    checkInRangeTarget 128 ⟨0, 5⟩ (.bounded ⟨⟨0, 10⟩, 15⟩) = some .ub ∧ checkInRangeTarget 128 ⟨0, 5⟩ (.bounded ⟨⟨0, 10⟩, 9⟩) = some .exn := by
  decide +kernel

end Verif.Bounded
