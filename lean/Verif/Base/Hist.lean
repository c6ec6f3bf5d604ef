import Verif.Base.Res

/-!
# Histories

The library's objects are state machines. An operation ends normally, with an exception
(after which the user goes on using the object), or in undefined behaviour.
-/

namespace Verif

universe u v w

/-- Outcome of an operation on a state `S`. -/
inductive Out (S : Type u) where
  | ok (s : S)
  | exn (s : S)
  | ub
  deriving Repr, DecidableEq

namespace Out

/-- Sequencing: exceptions propagate. -/
def bind {S : Type u} {T : Type v} (x : Out S) (f : S → Out T) (g : S → T) : Out T :=
  match x with
  | .ok s => f s
  | .exn s => .exn (g s)
  | .ub => .ub

/-- Run `f` after a normal end. -/
def andThen {S : Type u} (x : Out S) (f : S → Out S) : Out S :=
  match x with
  | .ok s => f s
  | .exn s => .exn s
  | .ub => .ub

@[simp] theorem andThen_ok {S : Type u} (s : S) (f : S → Out S) : (Out.ok s).andThen f = f s := rfl
@[simp] theorem andThen_exn {S : Type u} (s : S) (f : S → Out S) : (Out.exn s).andThen f = .exn s := rfl
@[simp] theorem andThen_ub {S : Type u} (f : S → Out S) : (Out.ub : Out S).andThen f = .ub := rfl

/-- The outcome with the given exception flag. -/
def of {S : Type u} (thrown : Bool) (s : S) : Out S := if thrown then .exn s else .ok s

@[simp] theorem of_true {S : Type u} (s : S) : Out.of true s = .exn s := rfl
@[simp] theorem of_false {S : Type u} (s : S) : Out.of false s = .ok s := rfl

end Out

/-- Running a history; the result is the final state together with, for every operation,
whether it threw. `none`: undefined behaviour happened. -/
def runHist {S : Type u} {O : Type v} (step : S → O → Out S) (s : S) : List O → Option (S × List Bool)
  | [] => some (s, [])
  | o :: os =>
    match step s o with
    | .ok s' => (runHist step s' os).map fun p => (p.1, false :: p.2)
    | .exn s' => (runHist step s' os).map fun p => (p.1, true :: p.2)
    | .ub => none

/-- Running a history of a specification whose operations say what they do and whether
they throw. -/
def specHist {A : Type u} {O : Type v} (spec : A → O → A × Bool) (a : A) : List O → A × List Bool
  | [] => (a, [])
  | o :: os =>
    let r := spec a o
    let q := specHist spec r.1 os
    (q.1, r.2 :: q.2)

/-- Every operation of the history respects its precondition when it is called. -/
def PreHist {A : Type u} {O : Type v} (spec : A → O → A × Bool) (pre : A → O → Prop) (a : A) : List O → Prop
  | [] => True
  | o :: os => pre a o ∧ PreHist spec pre (spec a o).1 os

/-- Stepwise refinement lifts to histories. -/
theorem runHist_refines {S : Type u} {A : Type v} {O : Type w} {step : S → O → Out S}
    {spec : A → O → A × Bool} {pre : A → O → Prop} {R : S → A → Prop}
    (h : ∀ s a o, R s a → pre a o → ∃ s', step s o = Out.of (spec a o).2 s' ∧ R s' (spec a o).1) :
    ∀ (os : List O) (s : S) (a : A), R s a → PreHist spec pre a os →
      ∃ s', runHist step s os = some (s', (specHist spec a os).2) ∧ R s' (specHist spec a os).1 := by
  intro os
  induction os with
  | nil => intro s a hr _; exact ⟨s, rfl, hr⟩
  | cons o os ih =>
    intro s a hr hp
    obtain ⟨s', h1, h2⟩ := h s a o hr hp.1
    obtain ⟨t, t1, t2⟩ := ih s' (spec a o).1 h2 hp.2
    refine ⟨t, ?_, t2⟩
    rw [runHist.eq_2, h1]
    cases hb : (spec a o).2
    · simp only [Out.of_false, t1, Option.map_some]
      simp [specHist, hb]
    · simp only [Out.of_true, t1, Option.map_some]
      simp [specHist, hb]

/-- Update of one object in a family of objects. -/
def upd {X : Type u} (w : Nat → X) (i : Nat) (x : X) : Nat → X := fun k => if k = i then x else w k

@[simp] theorem upd_same {X : Type u} (w : Nat → X) (i : Nat) (x : X) : upd w i x i = x := by simp [upd]
theorem upd_other {X : Type u} (w : Nat → X) {i k : Nat} (x : X) (h : k ≠ i) : upd w i x k = w k := by simp [upd, h]

end Verif
