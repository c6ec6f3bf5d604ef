import Verif.Base.Res
import Mathlib.Data.List.Basic
import Mathlib.Data.List.Induction

/-!
# `scope_guard` and `scope_fail` (property C69)

Two models. The first runs whole programs with nested scopes, exceptions, handlers and guards
whose functions are themselves such programs (and so may run during stack unwinding and contain
guards of their own). The second runs an arbitrary history of operations on guard objects that
need not be nested (guards on the heap or returned from functions).
-/

namespace Verif.Scope

open Verif

/-! ## Programs -/

/-- A program. `guard fail fn body` is `{ scope_guard g(fn); body }` or, if `fail` is set,
`{ scope_fail g(fn); body }`; `moveGuard i body` is `{ auto g = std::move(g_i); body }` where
`g_i` is the `i`-th enclosing guard of the current function (the innermost is 0); `dismiss i` is
`g_i.dismiss()`. `emit e` is an observable effect. -/
inductive Prog where
  | skip
  | emit (e : Nat)
  | throw
  | seq (p q : Prog)
  | tryCatch (body handler : Prog)
  | guard (fail : Bool) (fn body : Prog)
  | moveGuard (i : Nat) (body : Prog)
  | dismiss (i : Nat)
  deriving Repr

/-- How a program ends: normally, by an exception, by `std::terminate`, or with undefined
behaviour (no such guard). -/
inductive End where
  | normal
  | threw
  | terminated
  | ub
  deriving Repr, DecidableEq

/-- The data members of a guard object: source/bounded/scope_guard.cpp 36-37 and
source/bounded/scope_fail.cpp 36 (`count`, unused for `scope_guard`). The function is what it
does when it is called while `n` exceptions are uncaught. -/
structure Guard where
  fail : Bool
  count : Nat
  active : Bool
  fn : Nat → List Nat × End

/-- source/bounded/scope_fail.cpp 24-28 (only for `scope_fail`) and then
source/bounded/scope_guard.cpp 26-30: the destructor, while `n` exceptions are uncaught. -/
def Guard.destroy (g : Guard) (n : Nat) : List Nat × End :=
  let active := if g.fail then (if g.count = n then false else g.active) else g.active
  if active then
    match g.fn n with
    -- destructors are `noexcept`
    | (l, .threw) => (l, .terminated)
    | r => r
  else ([], .normal)

/-- The effect of a statement: the guards of the current function after it, the observable
effects, and how it ended. -/
abbrev Outcome (G : Type) := List G × List Nat × End

/-- Leaving the scope of the guard at the head of the list: its destructor runs, with one more
uncaught exception if the scope is left by an exception (C++ [except.uncaught]). -/
def leave (n : Nat) : Outcome Guard → Outcome Guard
  | (g :: gs, l, .normal) =>
    match g.destroy n with
    | (l', e) => (gs, l ++ l', e)
  | (g :: gs, l, .threw) =>
    match g.destroy (n + 1) with
    | (l', .normal) => (gs, l ++ l', .threw)
    | (l', e) => (gs, l ++ l', e)
  | ([], l, _) => ([], l, .ub)
  | (_ :: gs, l, e) => (gs, l, e)

/-- Running a program while `n` exceptions are uncaught.
* the constructors: source/bounded/scope_guard.cpp 13-17 (`m_is_active(true)`) and
  source/bounded/scope_fail.cpp 16-20 (`m_uncaught_exceptions(std::uncaught_exceptions())`);
* the move constructors: source/bounded/scope_guard.cpp 19-23 (`std::exchange(other.m_is_active,
  false)`) and source/bounded/scope_fail.cpp 22 (the count is copied);
* `dismiss`: source/bounded/scope_guard.cpp 32-34 and source/bounded/scope_fail.cpp 30-32.

Simplifications: constructing and moving the function does not throw; the function does not use
the guards of the function that created it. -/
def Prog.run : Prog → Nat → List Guard → Outcome Guard
  | .skip, _, gs => (gs, [], .normal)
  | .emit e, _, gs => (gs, [e], .normal)
  | .throw, _, gs => (gs, [], .threw)
  | .seq p q, n, gs =>
    match p.run n gs with
    | (gs1, l1, .normal) =>
      match q.run n gs1 with
      | (gs2, l2, e) => (gs2, l1 ++ l2, e)
    | r => r
  | .tryCatch p h, n, gs =>
    match p.run n gs with
    -- the exception is caught: the count is again `n` in the handler
    | (gs1, l1, .threw) =>
      match h.run n gs1 with
      | (gs2, l2, e) => (gs2, l1 ++ l2, e)
    | r => r
  | .guard fail fn body, n, gs =>
    leave n (body.run n (⟨fail, n, true, fun k => ((fn.run k []).2.1, (fn.run k []).2.2)⟩ :: gs))
  | .moveGuard i body, n, gs =>
    match gs[i]? with
    | none => (gs, [], .ub)
    | some g => leave n (body.run n (g :: gs.set i { g with active := false }))
  | .dismiss i, _, gs =>
    match gs[i]? with
    | none => (gs, [], .ub)
    | some g => (gs.set i { g with active := false }, [], .normal)

/-! ## Specification

No counting of exceptions and no flags: a guard is `some` obligation or `none`; the obligation of
a `scope_fail` is met when its scope is left by an exception and lapses when it is left normally. -/

/-- What is owed when the scope is left: only on failure, or always. -/
structure Duty where
  onlyOnFailure : Bool
  effects : List Nat × End

/-- Discharging a duty when the scope is left, `failed` = by an exception. -/
def discharge (failed : Bool) : Option Duty → List Nat × End
  | none => ([], .normal)
  | some d =>
    if d.onlyOnFailure && !failed then ([], .normal)
    else (d.effects.1, if d.effects.2 = .threw then .terminated else d.effects.2)

/-- Leaving a scope. -/
def specLeave : Outcome (Option Duty) → Outcome (Option Duty)
  | (d :: ds, l, .normal) => (ds, l ++ (discharge false d).1, (discharge false d).2)
  | (d :: ds, l, .threw) =>
    (ds, l ++ (discharge true d).1, if (discharge true d).2 = .normal then .threw else (discharge true d).2)
  | ([], l, _) => ([], l, .ub)
  | (_ :: ds, l, e) => (ds, l, e)

/-- What a program should do. -/
def Prog.spec : Prog → List (Option Duty) → Outcome (Option Duty)
  | .skip, ds => (ds, [], .normal)
  | .emit e, ds => (ds, [e], .normal)
  | .throw, ds => (ds, [], .threw)
  | .seq p q, ds =>
    match p.spec ds with
    | (ds1, l1, .normal) => ((q.spec ds1).1, l1 ++ (q.spec ds1).2.1, (q.spec ds1).2.2)
    | r => r
  | .tryCatch p h, ds =>
    match p.spec ds with
    | (ds1, l1, .threw) => ((h.spec ds1).1, l1 ++ (h.spec ds1).2.1, (h.spec ds1).2.2)
    | r => r
  | .guard fail fn body, ds => specLeave (body.spec (some ⟨fail, (fn.spec []).2⟩ :: ds))
  | .moveGuard i body, ds =>
    match ds[i]? with
    | none => (ds, [], .ub)
    | some d => specLeave (body.spec (d :: ds.set i none))
  | .dismiss i, ds =>
    match ds[i]? with
    | none => (ds, [], .ub)
    | some _ => (ds.set i none, [], .normal)

/-! ## Proofs -/

/-- The guard `g`, created while `n` exceptions were uncaught, stands for the duty `d`. -/
def Stands (n : Nat) (g : Guard) (d : Option Duty) : Prop :=
  g.count = n ∧ (g.active = d.isSome) ∧
    ∀ x ∈ d, g.fail = x.onlyOnFailure ∧ ∀ k, g.fn k = x.effects

theorem destroy_spec {n : Nat} {g : Guard} {d : Option Duty} (h : Stands n g d) :
    g.destroy n = discharge false d ∧ g.destroy (n + 1) = discharge true d := by
  obtain ⟨h1, h2, h3⟩ := h
  cases d with
  | none =>
    simp at h2
    unfold Guard.destroy discharge
    simp [h2]
  | some x =>
    obtain ⟨h4, h5⟩ := h3 x rfl
    simp at h2
    unfold Guard.destroy discharge
    simp only [h1, h2, h4, h5]
    cases x.onlyOnFailure <;> simp <;> (obtain ⟨_, l, e⟩ := x; cases e <;> simp)

theorem leave_spec {n : Nat} {o : Outcome Guard} {s : Outcome (Option Duty)}
    (h : List.Forall₂ (Stands n) o.1 s.1 ∧ o.2 = s.2) :
    List.Forall₂ (Stands n) (leave n o).1 (specLeave s).1 ∧ (leave n o).2 = (specLeave s).2 := by
  obtain ⟨gs, l, e⟩ := o
  obtain ⟨ds, l', e'⟩ := s
  obtain ⟨h1, h2⟩ := h
  simp only [Prod.mk.injEq] at h1 h2
  obtain ⟨rfl, rfl⟩ := h2
  cases h1 with
  | nil => simp [leave, specLeave]
  | cons hg hgs =>
    rename_i g d gs ds
    have hd := destroy_spec hg
    cases e with
    | normal =>
      unfold leave specLeave
      simp only [hd.1]
      exact ⟨hgs, trivial⟩
    | threw =>
      unfold leave specLeave
      simp only [hd.2]
      cases hq : discharge true d with
      | mk a b => cases b <;> simp_all
    | terminated => exact ⟨hgs, rfl⟩
    | ub => exact ⟨hgs, rfl⟩

theorem forall₂_set {α β : Type} {R : α → β → Prop} {l : List α} {m : List β} (h : List.Forall₂ R l m)
    {i : Nat} {a : α} {b : β} (hab : R a b) : List.Forall₂ R (l.set i a) (m.set i b) := by
  induction h generalizing i with
  | nil => exact .nil
  | cons h1 h2 ih =>
    cases i with
    | zero => exact .cons hab h2
    | succ i => exact .cons h1 ih

theorem forall₂_get {α β : Type} {R : α → β → Prop} {l : List α} {m : List β} (h : List.Forall₂ R l m)
    (i : Nat) : (l[i]? = none ∧ m[i]? = none) ∨ ∃ a b, l[i]? = some a ∧ m[i]? = some b ∧ R a b := by
  induction h generalizing i with
  | nil => left; simp
  | cons h1 h2 ih =>
    cases i with
    | zero => right; exact ⟨_, _, rfl, rfl, h1⟩
    | succ i => simpa using ih i

theorem stands_inactive {n : Nat} {g : Guard} {d : Option Duty} (h : Stands n g d) :
    Stands n { g with active := false } none := ⟨h.1, rfl, by simp⟩

theorem run_spec (p : Prog) (n : Nat) (gs : List Guard) (ds : List (Option Duty))
    (h : List.Forall₂ (Stands n) gs ds) :
    List.Forall₂ (Stands n) (p.run n gs).1 (p.spec ds).1 ∧ (p.run n gs).2 = (p.spec ds).2 := by
  induction p generalizing n gs ds with
  | skip => exact ⟨h, rfl⟩
  | emit e => exact ⟨h, rfl⟩
  | throw => exact ⟨h, rfl⟩
  | seq p q ihp ihq =>
    have hp := ihp n gs ds h
    unfold Prog.run Prog.spec
    revert hp
    generalize p.run n gs = o
    generalize p.spec ds = s
    obtain ⟨gs1, l1, e1⟩ := o
    obtain ⟨ds1, l1', e1'⟩ := s
    rintro ⟨h1, h2⟩
    simp only [Prod.mk.injEq] at h1 h2
    obtain ⟨rfl, rfl⟩ := h2
    cases e1 with
    | normal =>
      have hq := ihq n gs1 ds1 h1
      refine ⟨hq.1, ?_⟩
      simp only
      rw [← hq.2]
    | _ => exact ⟨h1, rfl⟩
  | tryCatch p q ihp ihq =>
    have hp := ihp n gs ds h
    unfold Prog.run Prog.spec
    revert hp
    generalize p.run n gs = o
    generalize p.spec ds = s
    obtain ⟨gs1, l1, e1⟩ := o
    obtain ⟨ds1, l1', e1'⟩ := s
    rintro ⟨h1, h2⟩
    simp only [Prod.mk.injEq] at h1 h2
    obtain ⟨rfl, rfl⟩ := h2
    cases e1 with
    | threw =>
      have hq := ihq n gs1 ds1 h1
      refine ⟨hq.1, ?_⟩
      simp only
      rw [← hq.2]
    | _ => exact ⟨h1, rfl⟩
  | guard fail fn body ihf ihb =>
    unfold Prog.run Prog.spec
    apply leave_spec
    apply ihb
    refine .cons ⟨rfl, rfl, ?_⟩ h
    rintro x hx
    simp only [Option.mem_def, Option.some.injEq] at hx
    subst hx
    exact ⟨rfl, fun k => (ihf k [] [] .nil).2⟩
  | moveGuard i body ih =>
    unfold Prog.run Prog.spec
    rcases forall₂_get h i with ⟨h1, h2⟩ | ⟨g, d, h1, h2, h3⟩
    · rw [h1, h2]; exact ⟨h, rfl⟩
    · rw [h1, h2]
      apply leave_spec
      apply ih
      exact .cons h3 (forall₂_set h (stands_inactive h3))
  | dismiss i =>
    unfold Prog.run Prog.spec
    rcases forall₂_get h i with ⟨h1, h2⟩ | ⟨g, d, h1, h2, h3⟩
    · rw [h1, h2]; exact ⟨h, rfl⟩
    · rw [h1, h2]
      exact ⟨forall₂_set h (stands_inactive h3), rfl⟩

/-- C69: whatever is nested in whatever, also if the program itself runs while `n` exceptions are
already propagating, the function of every `scope_guard` runs exactly when its scope is left, and
the function of every `scope_fail` exactly when its scope is left by an exception, unless the
guard was dismissed; a move hands the obligation over. The effects of the whole program, in
order, are those of the specification, which knows neither flags nor counts. -/
theorem C69_programs (p : Prog) (n : Nat) : (p.run n []).2 = (p.spec []).2 :=
  (run_spec p n [] [] .nil).2

/-- A `scope_fail` inside the function of a `scope_guard` which runs during unwinding: its own
scope is left normally, so it does nothing, although an exception is propagating. -/
example : (Prog.run (.tryCatch (.guard false (.seq (.guard true (.emit 7) (.emit 1)) (.emit 2))
    (.guard true (.emit 3) .throw)) (.emit 4)) 0 []).2 = ([3, 1, 2, 4], .normal) := by
  rw [C69_programs]
  rfl

/-- Dismissed, moved and thrown through. -/
example : (Prog.run (.tryCatch (.guard true (.emit 1) (.guard true (.emit 2)
    (.seq (.dismiss 0) (.seq (.moveGuard 1 .throw) (.emit 9))))) .skip) 0 []).2 = ([1], .normal) := by
  rw [C69_programs]
  rfl

/-! ## Guards that are not nested -/

/-- An operation on guard objects `g`, with the number `n` of uncaught exceptions at the time:
`scope_fail g(f)` or `scope_guard g(f)`, `auto g = std::move(from)`, `g.dismiss()`, and the
destruction of `g`. -/
inductive Op where
  | make (g : Nat) (fail : Bool) (f : Nat) (n : Nat)
  | move (g from_ : Nat)
  | dismiss (g : Nat)
  | destroy (g : Nat) (n : Nat)
  deriving Repr, DecidableEq

/-- A guard object with an opaque function. -/
structure Obj where
  fail : Bool
  count : Nat
  active : Bool
  f : Nat
  deriving Repr, DecidableEq

/-- The live guard objects, and which functions were called, in order. -/
structure World where
  objs : Nat → Option Obj
  calls : List Nat

/-- The destructor calls the function: source/bounded/scope_fail.cpp 24-28,
source/bounded/scope_guard.cpp 26-30. -/
def Obj.calls (o : Obj) (n : Nat) : Bool := if o.fail then (if o.count = n then false else o.active) else o.active

/-- One operation; `none` if it refers to an object that is not there, or creates one that is. -/
def Op.run (w : World) : Op → Option World
  | .make g fail f n =>
    match w.objs g with
    | some _ => none
    | none => some { w with objs := fun i => if i = g then some ⟨fail, n, true, f⟩ else w.objs i }
  | .move g from_ =>
    match w.objs g, w.objs from_ with
    | none, some o =>
      some { w with objs := fun i => if i = g then some o else if i = from_ then some { o with active := false } else w.objs i }
    | _, _ => none
  | .dismiss g =>
    match w.objs g with
    | none => none
    | some o => some { w with objs := fun i => if i = g then some { o with active := false } else w.objs i }
  | .destroy g n =>
    match w.objs g with
    | none => none
    | some o =>
      some ⟨fun i => if i = g then none else w.objs i, if o.calls n then w.calls ++ [o.f] else w.calls⟩

/-- A history. -/
def runOps : World → List Op → Option World
  | w, [] => some w
  | w, o :: os => do runOps (← o.run w) os

/-- The start. -/
def World.init : World := ⟨fun _ => none, []⟩

/-! ### Specification -/

/-- One step of `owner`. -/
def ownerStep (f : Nat) (c : Option Nat) : Op → Option Nat
  | .make g _ f' _ => if f' = f then some g else c
  | .move g from_ => if c = some from_ then some g else c
  | .dismiss g => if c = some g then none else c
  | .destroy g _ => if c = some g then none else c

/-- Who is responsible for the function `f` after a history: the guard that it was given to, or
last moved to, until that guard is dismissed or destroyed. -/
def owner (f : Nat) (h : List Op) : Option Nat := h.foldl (ownerStep f) none

/-- The guards that were made with the function `f`: whether for failure only, and the number of
uncaught exceptions then. -/
def made (f : Nat) (h : List Op) : List (Bool × Nat) :=
  h.filterMap fun
    | .make _ fail f' n => if f' = f then some (fail, n) else none
    | _ => none

/-- At some point of the history, the guard responsible for `f` was destroyed (for a `scope_fail`:
while another number of exceptions was propagating than when it was made). -/
def Due (f : Nat) (h : List Op) : Prop :=
  ∃ h1 g n h2, h = h1 ++ .destroy g n :: h2 ∧ owner f h1 = some g ∧
    ∀ p ∈ made f h1, p.1 = true → n ≠ p.2

/-! ### Proofs -/

theorem owner_snoc (f : Nat) (h : List Op) (o : Op) : owner f (h ++ [o]) = ownerStep f (owner f h) o := by
  simp [owner]

theorem made_snoc (f : Nat) (h : List Op) (o : Op) :
    made f (h ++ [o]) = made f h ++ made f [o] := by
  simp [made]

theorem runOps_snoc (w : World) (h : List Op) (o : Op) :
    runOps w (h ++ [o]) = (runOps w h).bind o.run := by
  induction h generalizing w with
  | nil =>
    simp only [List.nil_append, runOps, Option.bind_some]
    show (o.run w).bind some = o.run w
    cases o.run w <;> rfl
  | cons a h ih =>
    simp only [List.cons_append, runOps]
    cases a.run w with
    | none => rfl
    | some w' => exact ih w'

theorem due_snoc (f : Nat) (h : List Op) (o : Op) :
    Due f (h ++ [o]) ↔ Due f h ∨ ∃ g n, o = .destroy g n ∧ owner f h = some g ∧
      ∀ p ∈ made f h, p.1 = true → n ≠ p.2 := by
  constructor
  · rintro ⟨h1, g, n, h2, he, ho, hp⟩
    rcases List.eq_nil_or_concat h2 with rfl | ⟨h2', a, rfl⟩
    · have := List.append_inj' (s₁ := h) (t₁ := [o]) (s₂ := h1) (t₂ := [.destroy g n]) he rfl
      obtain ⟨rfl, h3⟩ := this
      exact Or.inr ⟨g, n, by simpa using h3, ho, hp⟩
    · have e : h ++ [o] = (h1 ++ .destroy g n :: h2') ++ [a] := by rw [he]; simp
      have := List.append_inj' e rfl
      exact Or.inl ⟨h1, g, n, h2', this.1, ho, hp⟩
  · rintro (⟨h1, g, n, h2, he, ho, hp⟩ | ⟨g, n, rfl, ho, hp⟩)
    · exact ⟨h1, g, n, h2 ++ [o], by rw [he]; simp, ho, hp⟩
    · exact ⟨h, g, n, [], rfl, ho, hp⟩

/-- What holds after every history. -/
structure HInv (f : Nat) (h : List Op) (w : World) : Prop where
  act : ∀ i o, w.objs i = some o → o.f = f → o.active = true → owner f h = some i
  own : ∀ i, owner f h = some i → ∃ o, w.objs i = some o ∧ o.f = f ∧ o.active = true ∧ (o.fail, o.count) ∈ made f h
  cnt : w.calls.count f ≤ 1
  due : 1 ≤ w.calls.count f ↔ Due f h
  fresh : made f h = [] → w.calls.count f = 0 ∧ owner f h = none
  excl : owner f h ≠ none → w.calls.count f = 0

theorem mem_made_one {f : Nat} {h : List Op} (hm : (made f h).length ≤ 1) {p q : Bool × Nat}
    (hp : p ∈ made f h) (hq : q ∈ made f h) : p = q := by
  revert hp hq
  match made f h, hm with
  | [], _ => simp
  | [a], _ => simp; rintro rfl rfl; rfl
  | a :: b :: l, hm => simp at hm

theorem hinv (f : Nat) (h : List Op) (w : World) (hr : runOps .init h = some w)
    (hm : (made f h).length ≤ 1) : HInv f h w := by
  induction h using List.reverseRecOn generalizing w with
  | nil =>
    simp only [runOps, Option.some.injEq] at hr
    subst hr
    refine ⟨?_, ?_, ?_, ?_, ?_, ?_⟩ <;> simp [World.init, owner, made, Due]
  | append_singleton h o ih =>
    rw [runOps_snoc] at hr
    rw [made_snoc] at hm
    simp only [List.length_append] at hm
    cases hw : runOps .init h with
    | none => rw [hw] at hr; simp at hr
    | some w0 =>
      rw [hw] at hr
      simp only [Option.bind_some] at hr
      have I := ih w0 hw (by omega)
      obtain ⟨act, own, cnt, due, fresh, excl⟩ := I
      cases o with
      | make g fail f' n =>
        cases hg : w0.objs g with
        | some o => simp [Op.run, hg] at hr
        | none =>
          simp only [Op.run, hg, Option.some.injEq] at hr
          subst hr
          by_cases hf : f' = f
          · subst hf
            have h0 : made f' h = [] := by
              simp [made] at hm
              simpa [made] using hm
            have ⟨c0, o0⟩ := fresh h0
            refine ⟨?_, ?_, ?_, ?_, ?_, ?_⟩
            · intro i o hi hof ha
              rw [owner_snoc, ownerStep, if_pos rfl]
              simp only at hi
              split at hi
              · rename_i e; rw [e]
              · have := act i o hi hof ha; rw [o0] at this; cases this
            · intro i hi
              rw [owner_snoc, ownerStep, if_pos rfl] at hi
              simp only [Option.some.injEq] at hi
              subst hi
              exact ⟨⟨fail, n, true, f'⟩, by simp, rfl, rfl, by simp [made]⟩
            · exact cnt
            · rw [due_snoc]; simp only; rw [due]; simp
            · simp [made]
            · intro _; exact c0
          · have em : made f (h ++ [.make g fail f' n]) = made f h := by
              rw [made_snoc]; simp [made, hf]
            have eo : owner f (h ++ [.make g fail f' n]) = owner f h := by
              rw [owner_snoc, ownerStep, if_neg hf]
            refine ⟨?_, ?_, cnt, ?_, ?_, ?_⟩
            · intro i o hi hof ha
              rw [eo]
              simp only at hi
              split at hi
              · simp only [Option.some.injEq] at hi; subst hi; exact absurd hof hf
              · exact act i o hi hof ha
            · intro i hi
              rw [eo] at hi
              rw [em]
              obtain ⟨o, h1, h2⟩ := own i hi
              refine ⟨o, ?_, h2⟩
              simp only
              rw [if_neg (by rintro rfl; rw [hg] at h1; cases h1)]
              exact h1
            · rw [due_snoc]; simp only; rw [due]; simp
            · rw [em, eo]; exact fresh
            · rw [eo]; exact excl
      | move g from_ =>
        have em : made f (h ++ [.move g from_]) = made f h := by rw [made_snoc]; simp [made]
        cases hg : w0.objs g with
        | some o => simp [Op.run, hg] at hr
        | none =>
          cases hs : w0.objs from_ with
          | none => simp [Op.run, hg, hs] at hr
          | some o =>
            simp only [Op.run, hg, hs, Option.some.injEq] at hr
            subst hr
            have hne : from_ ≠ g := by rintro rfl; rw [hg] at hs; cases hs
            have eo : owner f (h ++ [.move g from_]) = if owner f h = some from_ then some g else owner f h := by
              rw [owner_snoc, ownerStep]
            refine ⟨?_, ?_, cnt, ?_, ?_, ?_⟩
            · intro i o' hi hof ha
              rw [eo]
              simp only at hi
              split at hi
              · rename_i e
                simp only [Option.some.injEq] at hi; subst hi
                rw [if_pos (act from_ _ hs hof ha), e]
              · split at hi
                · simp only [Option.some.injEq] at hi; subst hi; cases ha
                · rename_i e1 e2
                  have := act i o' hi hof ha
                  rw [if_neg (by rw [this]; simpa using e2)]
                  exact this
            · intro i hi
              rw [eo] at hi
              rw [em]
              split at hi
              · rename_i e
                simp only [Option.some.injEq] at hi
                subst hi
                obtain ⟨o', h1, h2⟩ := own from_ e
                rw [hs] at h1
                simp only [Option.some.injEq] at h1
                subst h1
                exact ⟨o, by simp, h2⟩
              · rename_i e
                obtain ⟨o', h1, h2⟩ := own i hi
                refine ⟨o', ?_, h2⟩
                simp only
                rw [if_neg (by rintro rfl; rw [hg] at h1; cases h1),
                  if_neg (by rintro rfl; exact e hi)]
                exact h1
            · rw [due_snoc]; simp only; rw [due]; simp
            · rw [em, eo]
              intro h0
              have := fresh h0
              refine ⟨this.1, ?_⟩
              rw [this.2]; simp
            · rw [eo]
              intro hq
              apply excl
              intro h0
              apply hq
              rw [h0]; simp
      | dismiss g =>
        have em : made f (h ++ [.dismiss g]) = made f h := by rw [made_snoc]; simp [made]
        cases hg : w0.objs g with
        | none => simp [Op.run, hg] at hr
        | some o =>
          simp only [Op.run, hg, Option.some.injEq] at hr
          subst hr
          have eo : owner f (h ++ [.dismiss g]) = if owner f h = some g then none else owner f h := by
            rw [owner_snoc, ownerStep]
          refine ⟨?_, ?_, cnt, ?_, ?_, ?_⟩
          · intro i o' hi hof ha
            rw [eo]
            simp only at hi
            split at hi
            · simp only [Option.some.injEq] at hi; subst hi; cases ha
            · rename_i e
              have := act i o' hi hof ha
              rw [if_neg (by rw [this]; simpa using e)]
              exact this
          · intro i hi
            rw [eo] at hi
            rw [em]
            split at hi
            · cases hi
            · rename_i e
              obtain ⟨o', h1, h2⟩ := own i hi
              refine ⟨o', ?_, h2⟩
              simp only
              rw [if_neg (by rintro rfl; exact e hi)]
              exact h1
          · rw [due_snoc]; simp only; rw [due]; simp
          · rw [em, eo]
            intro h0
            have := fresh h0
            refine ⟨this.1, ?_⟩
            rw [this.2]; simp
          · rw [eo]
            intro hq
            apply excl
            intro h0
            apply hq
            rw [h0]; simp
      | destroy g n =>
        have em : made f (h ++ [.destroy g n]) = made f h := by rw [made_snoc]; simp [made]
        cases hg : w0.objs g with
        | none => simp [Op.run, hg] at hr
        | some o =>
          simp only [Op.run, hg, Option.some.injEq] at hr
          subst hr
          have eo : owner f (h ++ [.destroy g n]) = if owner f h = some g then none else owner f h := by
            rw [owner_snoc, ownerStep]
          -- the function called
          have hcall : (o.calls n = true ∧ o.f = f) ↔ (owner f h = some g ∧ ∀ p ∈ made f h, p.1 = true → n ≠ p.2) := by
            constructor
            · rintro ⟨h1, h2⟩
              have ha : o.active = true := by
                unfold Obj.calls at h1
                split at h1
                · split at h1
                  · cases h1
                  · exact h1
                · exact h1
              have ho := act g o hg h2 ha
              refine ⟨ho, ?_⟩
              obtain ⟨o', h3, _, _, h4⟩ := own g ho
              rw [hg] at h3
              simp only [Option.some.injEq] at h3
              subst h3
              intro p hp hpt hn
              rw [mem_made_one (by omega) hp h4] at hpt hn
              simp only at hpt hn
              unfold Obj.calls at h1
              rw [if_pos hpt, if_pos hn.symm] at h1
              cases h1
            · rintro ⟨h1, h2⟩
              obtain ⟨o', h3, h5, h6, h4⟩ := own g h1
              rw [hg] at h3
              simp only [Option.some.injEq] at h3
              subst h3
              refine ⟨?_, h5⟩
              unfold Obj.calls
              split
              · rename_i hfail
                rw [if_neg (by intro he; exact h2 _ h4 hfail he.symm)]
                exact h6
              · exact h6
          have hcount : (if o.calls n then w0.calls ++ [o.f] else w0.calls).count f =
              w0.calls.count f + if owner f h = some g ∧ ∀ p ∈ made f h, p.1 = true → n ≠ p.2 then 1 else 0 := by
            by_cases hc : owner f h = some g ∧ ∀ p ∈ made f h, p.1 = true → n ≠ p.2
            · have := hcall.mpr hc
              rw [if_pos this.1, if_pos hc, List.count_append, this.2]; simp
            · rw [if_neg hc]
              by_cases hcl : o.calls n = true
              · have hne : o.f ≠ f := fun he => hc (hcall.mp ⟨hcl, he⟩)
                rw [if_pos hcl, List.count_append]; simp [hne]
              · rw [if_neg hcl]; rfl
          refine ⟨?_, ?_, ?_, ?_, ?_, ?_⟩
          · intro i o' hi hof ha
            rw [eo]
            simp only at hi
            split at hi
            · cases hi
            · rename_i e
              have := act i o' hi hof ha
              rw [if_neg (by rw [this]; simpa using e)]
              exact this
          · intro i hi
            rw [eo] at hi
            rw [em]
            split at hi
            · cases hi
            · rename_i e
              obtain ⟨o', h1, h2⟩ := own i hi
              refine ⟨o', ?_, h2⟩
              simp only
              rw [if_neg (by rintro rfl; exact e hi)]
              exact h1
          · simp only
            rw [hcount]
            split
            · rename_i hc
              have := excl (by rw [hc.1]; simp)
              omega
            · omega
          · rw [due_snoc]
            simp only
            rw [hcount, ← due]
            split
            · rename_i hc
              constructor
              · intro _; exact Or.inr ⟨g, n, rfl, hc⟩
              · intro _; omega
            · rename_i hc
              constructor
              · intro hh; exact Or.inl (by omega)
              · rintro (hh | ⟨g', n', he, h1, h2⟩)
                · omega
                · cases he; exact absurd ⟨h1, h2⟩ hc
          · rw [em, eo]
            intro h0
            have := fresh h0
            simp only
            rw [hcount, this.1, this.2]
            simp
          · rw [eo]
            intro hq
            simp only
            rw [hcount, if_neg]
            · rw [excl (by intro h0; apply hq; rw [h0]; simp)]
            · rintro ⟨h1, _⟩
              apply hq
              rw [if_pos h1]

/-- C69: after any history of guard objects, nested or not, with any number of moves, the
function given to one guard has been called at most once, and it has been called exactly if the
guard that was responsible for it at that time was destroyed (for a `scope_fail`: at another
count of uncaught exceptions than when it was made). -/
theorem C69_exactly_once {f : Nat} {h : List Op} {w : World} (hr : runOps .init h = some w)
    (hm : (made f h).length ≤ 1) : w.calls.count f ≤ 1 ∧ (f ∈ w.calls ↔ Due f h) := by
  have I := hinv f h w hr hm
  refine ⟨I.cnt, ?_⟩
  rw [← I.due]
  exact List.count_pos_iff.symm

/-- Made, moved twice, the moved-from guards destroyed first. -/
example : ∃ w, runOps .init [.make 0 false 7 0, .move 1 0, .destroy 0 0, .move 2 1, .destroy 2 0, .destroy 1 0] = some w ∧
    w.calls.count 7 ≤ 1 ∧ 7 ∈ w.calls := by
  refine ⟨_, rfl, ?_⟩
  have := C69_exactly_once (f := 7)
    (h := [.make 0 false 7 0, .move 1 0, .destroy 0 0, .move 2 1, .destroy 2 0, .destroy 1 0]) rfl (by decide)
  exact ⟨this.1, this.2.mpr ⟨[.make 0 false 7 0, .move 1 0, .destroy 0 0, .move 2 1], 2, 0, [.destroy 1 0], rfl, by decide,
    by decide⟩⟩

/-- C69: outside of nested scopes a `scope_fail` is wrong. One that is made while an exception
propagates (by a destructor, or in a function called by one) and destroyed after the exception
was caught runs its function although nothing failed: the counts are compared with `==` where
"more than before" is meant. And one that is made in a destructor during unwinding and destroyed
while the next exception propagates does not run it. -/
theorem C69_fail_violated :
    (∃ w, runOps .init [.make 0 true 7 1, .destroy 0 0] = some w ∧ w.calls = [7]) ∧
    (∃ w, runOps .init [.make 0 true 7 1, .destroy 0 1] = some w ∧ w.calls = []) :=
  ⟨⟨_, rfl, rfl⟩, ⟨_, rfl, rfl⟩⟩

end Verif.Scope
