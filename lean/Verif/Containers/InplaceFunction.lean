import Mathlib.Data.List.Basic

/-!
# `trivial_inplace_function` (property C70)

A callable of a trivially copyable type is its object representation, a list of bytes, together
with the effect of calling an object with that representation. Memory outside of the callables
(`G`) may be read and changed by calls.
-/

namespace Verif.InplaceFunction

variable {G A R : Type}

/-- The type of a callable. `ptr` is the implicit conversion to a pointer to function, if there
is one, and gives `none` for a null pointer. `call` is calling an object with the given
representation: the global state and the representation afterwards, and the result; `none` is
undefined behaviour (calling a null pointer). -/
structure FnTy (G A R : Type) where
  size : Nat
  align : Nat
  empty : Bool
  pointer : Bool
  trivDefault : Bool
  ptr : Option (List Nat → Option Nat)
  call : List Nat → A → G → Option (G × List Nat × R)

/-- The number of bytes that matter. -/
def FnTy.rep (T : FnTy G A R) : Nat := if T.empty then 0 else T.size

/-- source/containers/trivial_inplace_function.cpp 44-58: the concept `trivially_storable`
(that the call has the right type and that the class is trivially copyable is assumed). -/
def accepts (cap al : Nat) (T : FnTy G A R) : Bool :=
  T.pointer || ((if cap = 0 then T.empty else decide (T.size ≤ cap)) && decide (T.align ≤ al))

/-- source/containers/trivial_inplace_function.cpp 86-87 `use_single_indirection`; `defAl` is
`alignment_for_capacity<0>`. -/
def single (cap al defAl : Nat) : Bool := cap == 0 && al == defAl

/-- The body of the constructor compiles: the `static_assert` at
source/containers/trivial_inplace_function.cpp 122-125, or else the array of padding has a size
(77) and `std::bit_cast` (128-130) finds two types of the same size, which is the case if the
capacity is a multiple of the alignment of the callable. -/
def compiles (cap al defAl : Nat) (T : FnTy G A R) : Bool :=
  if single cap al defAl then T.ptr.isSome || T.trivDefault
  else decide (T.rep ≤ cap) && decide (cap % T.align = 0) && (cap != 0 || T.align == 1)

/-- source/containers/trivial_inplace_function.cpp 95: `m_function_indirection`. The lambdas of
lines 104-106 (`defaulted`) and 109-117 (`through`), a pointer to a function (`direct`), or
null. -/
inductive Ind (G A R : Type) where
  | null
  | direct (n : Nat)
  | defaulted (T : FnTy G A R)
  | through (T : FnTy G A R)

/-- The data members, source/containers/trivial_inplace_function.cpp 94-95. -/
structure Fn (G A R : Type) where
  storage : List Nat
  ind : Ind G A R

/-- source/containers/trivial_inplace_function.cpp 97-119 `create_function_indirection`. -/
def createIndirection (s : Bool) (T : FnTy G A R) (b : List Nat) : Ind G A R :=
  if s then
    match T.ptr with
    | some p =>
      match p b with
      | some n => .direct n
      | none => .null
    | none => .defaulted T
  else .through T

/-- source/containers/trivial_inplace_function.cpp 121-132 `make_storage`; 65-80 `padded`: the
value, then zero bytes. -/
def makeStorage (s : Bool) (cap : Nat) (b : List Nat) : List Nat :=
  if s then [] else b ++ List.replicate (cap - b.length) 0

/-- source/containers/trivial_inplace_function.cpp 142-146: the constructor; `none` if it does not
compile. -/
def construct (cap al defAl : Nat) (T : FnTy G A R) (b : List Nat) : Option (Fn G A R) :=
  if accepts cap al T && compiles cap al defAl T then
    some ⟨makeStorage (single cap al defAl) cap b, createIndirection (single cap al defAl) T b⟩
  else none

/-- source/containers/trivial_inplace_function.cpp 148-161 `operator()`. `free n` is the function
with address `n`. -/
def Fn.call (free : Nat → A → G → Option (G × R)) (w : Fn G A R) (a : A) (g : G) :
    Option (G × Fn G A R × R) :=
  match w.ind with
  | .null => none
  | .direct n => (free n a g).map fun r => (r.1, w, r.2)
  -- `Function()(args...)`
  | .defaulted T => (T.call [] a g).map fun r => (r.1, w, r.2.2)
  -- `reinterpret_cast<Function &>(storage)`
  | .through T =>
    (T.call (w.storage.take T.rep) a g).map fun r =>
      (r.1, ⟨r.2.1 ++ w.storage.drop T.rep, .through T⟩, r.2.2)

/-- source/containers/trivial_inplace_function.cpp 174-176 `index`. -/
def Fn.index (w : Fn G A R) : Int :=
  match w.ind with
  | .null => 0
  | _ => -1

/-- source/containers/trivial_inplace_function.cpp 134-137, 171-173: the tombstone. -/
def tombstone (cap : Nat) : Fn G A R := ⟨List.replicate cap 0, .null⟩

/-- Operations on variables of one type `trivial_inplace_function<R(A), cap, al>`: construction
from (or assignment of) a callable, copy construction or copy assignment (both copy the bytes of
the object; moving is the same), a call, and the end of the lifetime. -/
inductive Op (G A R : Type) where
  | make (i : Nat) (T : FnTy G A R) (b : List Nat)
  | copy (i j : Nat)
  | call (i : Nat) (a : A)
  | destroy (i : Nat)

/-- The variables, the memory outside of them, and the results of the calls so far. -/
structure St (F : Type) (G R : Type) where
  vars : Nat → Option F
  g : G
  results : List R

/-- One operation; `none` is undefined behaviour, an operation on a variable that is not there,
or one that does not compile. -/
def Op.run (cap al defAl : Nat) (free : Nat → A → G → Option (G × R)) (s : St (Fn G A R) G R) :
    Op G A R → Option (St (Fn G A R) G R)
  | .make i T b => (construct cap al defAl T b).map fun w => { s with vars := fun k => if k = i then some w else s.vars k }
  | .copy i j => (s.vars j).map fun w => { s with vars := fun k => if k = i then some w else s.vars k }
  | .call i a =>
    match s.vars i with
    | none => none
    | some w => (w.call free a s.g).map fun r =>
        ⟨fun k => if k = i then some r.2.1 else s.vars k, r.1, s.results ++ [r.2.2]⟩
  | .destroy i => some { s with vars := fun k => if k = i then none else s.vars k }

/-- A history. -/
def runOps (cap al defAl : Nat) (free : Nat → A → G → Option (G × R)) (s : St (Fn G A R) G R) :
    List (Op G A R) → Option (St (Fn G A R) G R)
  | [] => some s
  | o :: os =>
    match o.run cap al defAl free s with
    | none => none
    | some s' => runOps cap al defAl free s' os

/-! ## Specification: every variable has its own copy of the callable -/

/-- A callable value. -/
structure Val (G A R : Type) where
  T : FnTy G A R
  bytes : List Nat

/-- One operation on callables held by value, whatever their type. -/
def Op.spec (s : St (Val G A R) G R) : Op G A R → Option (St (Val G A R) G R)
  | .make i T b => some { s with vars := fun k => if k = i then some ⟨T, b⟩ else s.vars k }
  | .copy i j => (s.vars j).map fun w => { s with vars := fun k => if k = i then some w else s.vars k }
  | .call i a =>
    match s.vars i with
    | none => none
    | some v => (v.T.call v.bytes a s.g).map fun r =>
        ⟨fun k => if k = i then some ⟨v.T, r.2.1⟩ else s.vars k, r.1, s.results ++ [r.2.2]⟩
  | .destroy i => some { s with vars := fun k => if k = i then none else s.vars k }

/-- A history on callables held by value. -/
def specOps (s : St (Val G A R) G R) : List (Op G A R) → Option (St (Val G A R) G R)
  | [] => some s
  | o :: os =>
    match o.spec s with
    | none => none
    | some s' => specOps s' os

/-- What C++ guarantees about a type, and what the documentation
(source/containers/trivial_inplace_function.cpp 184-189) demands of it: a call does not change the
size of the object, and a call through the conversion to a function pointer is a call of the
object. -/
structure FnTy.Ok (free : Nat → A → G → Option (G × R)) (T : FnTy G A R) : Prop where
  keeps : ∀ b a g r, T.call b a g = some r → r.2.1.length = b.length
  conv : ∀ p, T.ptr = some p → ∀ b a g,
    T.call b a g = match p b with
      | none => none
      | some n => (free n a g).map fun r => (r.1, b, r.2)

/-- The operations construct only from well-formed callables that are accepted. -/
def Op.Ok (cap al defAl : Nat) (free : Nat → A → G → Option (G × R)) : Op G A R → Prop
  | .make _ T b => T.Ok free ∧ b.length = T.rep ∧ accepts cap al T = true ∧ compiles cap al defAl T = true
  | _ => True

/-! ## Proofs -/

/-- The wrapper `w` holds the callable `v`. -/
def Rel (cap al defAl : Nat) (free : Nat → A → G → Option (G × R)) (w : Fn G A R) (v : Val G A R) : Prop :=
  v.T.Ok free ∧ v.bytes.length = v.T.rep ∧ v.T.rep ≤ (if single cap al defAl then v.T.rep else cap) ∧
    (single cap al defAl = true → v.T.ptr = none → v.bytes = []) ∧
    ∃ tail, w.storage = (if single cap al defAl then [] else v.bytes ++ tail) ∧
      w.ind = createIndirection (single cap al defAl) v.T v.bytes

theorem construct_rel {cap al defAl : Nat} {free : Nat → A → G → Option (G × R)} {T : FnTy G A R} {b : List Nat}
    (h : Op.Ok cap al defAl free (.make 0 T b)) (hp : T.pointer = true → T.ptr.isSome = true) :
    ∃ w, construct cap al defAl T b = some w ∧ Rel cap al defAl free w ⟨T, b⟩ := by
  obtain ⟨h1, h2, h3, h4⟩ := h
  refine ⟨_, by unfold construct; rw [h3, h4]; rfl, h1, h2, ?_, ?_, List.replicate (cap - b.length) 0, ?_, rfl⟩
  · split
    · exact Nat.le_refl _
    · rename_i hs
      unfold compiles at h4
      rw [if_neg hs] at h4
      simp at h4
      exact h4.1.1
  · intro hs hn
    unfold single at hs
    unfold accepts at h3
    simp at hs h3
    have : T.empty = true := by
      rcases h3 with h3 | h3
      · have := hp h3
        simp only at hn
        rw [hn] at this; cases this
      · rw [if_pos hs.1] at h3; exact h3.1
    simp only
    apply List.eq_nil_of_length_eq_zero
    rw [h2]
    unfold FnTy.rep
    rw [if_pos this]
  · unfold makeStorage
    rfl

theorem call_rel {cap al defAl : Nat} {free : Nat → A → G → Option (G × R)} {w : Fn G A R} {v : Val G A R}
    (h : Rel cap al defAl free w v) (a : A) (g : G) :
    match v.T.call v.bytes a g with
    | none => w.call free a g = none
    | some r => ∃ w', w.call free a g = some (r.1, w', r.2.2) ∧ Rel cap al defAl free w' ⟨v.T, r.2.1⟩ := by
  obtain ⟨h1, h2, h3, h4, tail, h5, h6⟩ := h
  cases hs : single cap al defAl
  · rw [hs] at h3 h5 h6
    simp only [Bool.false_eq_true, if_false] at h3 h5
    simp only [createIndirection, Bool.false_eq_true, if_false] at h6
    have ht : w.storage.take v.T.rep = v.bytes := by rw [h5, ← h2]; simp
    have hd : w.storage.drop v.T.rep = tail := by rw [h5, ← h2]; simp
    unfold Fn.call
    rw [h6]
    simp only
    rw [ht, hd]
    cases hc : v.T.call v.bytes a g with
    | none => rfl
    | some r =>
      refine ⟨_, rfl, h1, ?_, ?_, ?_, tail, ?_, ?_⟩
      · rw [← h2]; exact h1.keeps _ _ _ _ hc
      · rw [hs]; simpa using h3
      · rw [hs]; intro hh; cases hh
      · rw [hs]; simp
      · rw [hs]; simp [createIndirection]
  · rw [hs] at h5 h6
    simp only [if_true] at h5
    cases hp : v.T.ptr with
    | some p =>
      have hcv := h1.conv p hp v.bytes a g
      simp only [createIndirection, if_true, hp] at h6
      rw [hcv]
      unfold Fn.call
      cases hn : p v.bytes with
      | none => rw [hn] at h6; simp only at h6; rw [h6]
      | some n =>
        rw [hn] at h6
        simp only at h6
        rw [h6]
        simp only
        cases hf : free n a g with
        | none => rfl
        | some r =>
          refine ⟨w, rfl, h1, h2, h3, h4, tail, ?_, ?_⟩
          · rw [hs]; exact h5
          · rw [hs]; simp [createIndirection, hp, hn, h6]
    | none =>
      have hb := h4 hs hp
      simp only [createIndirection, if_true, hp] at h6
      unfold Fn.call
      rw [h6]
      simp only
      rw [hb]
      cases hc : v.T.call [] a g with
      | none => rfl
      | some r =>
        have hk := h1.keeps _ _ _ _ hc
        have hr : r.2.1 = [] := List.eq_nil_of_length_eq_zero (by simpa using hk)
        refine ⟨w, rfl, h1, ?_, h3, ?_, tail, ?_, ?_⟩
        · rw [hr]; rw [hb] at h2; exact h2
        · intro _ _; exact hr
        · rw [hs]; exact h5
        · rw [hs]; simp [createIndirection, hp, h6]

/-- The variables correspond. -/
def RelSt (cap al defAl : Nat) (free : Nat → A → G → Option (G × R)) (s : St (Fn G A R) G R)
    (t : St (Val G A R) G R) : Prop :=
  s.g = t.g ∧ s.results = t.results ∧
    ∀ i, Option.Rel (Rel cap al defAl free) (s.vars i) (t.vars i)

/-- A pointer type converts to itself. -/
def Op.PtrOk : Op G A R → Prop
  | .make _ T _ => T.pointer = true → T.ptr.isSome = true
  | _ => True

theorem step_refines {cap al defAl : Nat} {free : Nat → A → G → Option (G × R)} {s : St (Fn G A R) G R}
    {t : St (Val G A R) G R} (h : RelSt cap al defAl free s t) (o : Op G A R) (ho : o.Ok cap al defAl free)
    (hp : o.PtrOk) :
    match o.spec t with
    | none => o.run cap al defAl free s = none
    | some t' => ∃ s', o.run cap al defAl free s = some s' ∧ RelSt cap al defAl free s' t' := by
  obtain ⟨hg, hr, hv⟩ := h
  have upd : ∀ (i : Nat) (w : Option (Fn G A R)) (v : Option (Val G A R)), Option.Rel (Rel cap al defAl free) w v →
      ∀ k, Option.Rel (Rel cap al defAl free) (if k = i then w else s.vars k) (if k = i then v else t.vars k) := by
    intro i w v h k
    by_cases hk : k = i
    · rw [if_pos hk, if_pos hk]; exact h
    · rw [if_neg hk, if_neg hk]; exact hv k
  cases o with
  | make i T b =>
    obtain ⟨w, h1, h2⟩ := construct_rel (cap := cap) (al := al) (defAl := defAl) (free := free) (T := T) (b := b) ho hp
    simp only [Op.spec, Op.run, h1, Option.map_some]
    exact ⟨_, rfl, hg, hr, upd i (some w) (some ⟨T, b⟩) (.some h2)⟩
  | copy i j =>
    simp only [Op.spec, Op.run]
    have hj := hv j
    revert hj
    generalize s.vars j = x
    generalize t.vars j = y
    intro hj
    cases hj with
    | none => rfl
    | some hj => exact ⟨_, rfl, hg, hr, upd i _ _ (.some hj)⟩
  | call i a =>
    simp only [Op.spec, Op.run]
    have hi := hv i
    revert hi
    generalize s.vars i = x
    generalize t.vars i = y
    intro hi
    cases hi with
    | none => rfl
    | some hi =>
      rename_i w v
      have hc := call_rel hi a t.g
      simp only
      rw [hg]
      cases h3 : v.T.call v.bytes a t.g with
      | none => rw [h3] at hc; simp only at hc; rw [hc]; rfl
      | some r =>
        rw [h3] at hc
        obtain ⟨w', h4, h5⟩ := hc
        rw [h4]
        exact ⟨_, rfl, rfl, by simp [hr], upd i (some w') (some ⟨v.T, r.2.1⟩) (.some h5)⟩
  | destroy i =>
    simp only [Op.spec, Op.run]
    exact ⟨_, rfl, hg, hr, upd i none none .none⟩

/-- C70: any history of constructing, assigning, copying, calling and destroying wrappers of one
type behaves as if every variable held its own copy of the callable itself: the same results, the
same effects outside, and undefined exactly when that would be. Copies are independent: state
changed by a call of one is not seen by another. -/
theorem C70_value_semantics {cap al defAl : Nat} {free : Nat → A → G → Option (G × R)} (os : List (Op G A R))
    (ho : ∀ o ∈ os, o.Ok cap al defAl free) (hp : ∀ o ∈ os, o.PtrOk) (g : G) :
    (runOps cap al defAl free ⟨fun _ => none, g, []⟩ os).map (fun s => (s.g, s.results)) =
      (specOps ⟨fun _ => none, g, []⟩ os).map fun s => (s.g, s.results) := by
  have key : ∀ (s : St (Fn G A R) G R) (t : St (Val G A R) G R), RelSt cap al defAl free s t →
      (runOps cap al defAl free s os).map (fun s => (s.g, s.results)) =
        (specOps t os).map fun s => (s.g, s.results) := by
    induction os with
    | nil =>
      intro s t h
      simp only [runOps, specOps, Option.map_some]
      rw [h.1, h.2.1]
    | cons o os ih =>
      intro s t h
      have hs := step_refines h o (ho o (by simp)) (hp o (by simp))
      simp only [runOps, specOps]
      cases h1 : o.spec t with
      | none => rw [h1] at hs; simp only at hs; rw [hs]; rfl
      | some t' =>
        rw [h1] at hs
        obtain ⟨s', h2, h3⟩ := hs
        rw [h2]
        exact ih (fun o h => ho o (by simp [h])) (fun o h => hp o (by simp [h])) s' t' h3
  exact key _ _ ⟨rfl, rfl, fun _ => .none⟩

/-- A counter of one byte: `struct { std::uint8_t n; auto operator()(int a) { return n += a; } }`. -/
def counter : FnTy Unit Nat Nat where
  size := 1
  align := 1
  empty := false
  pointer := false
  trivDefault := true
  ptr := none
  call b a g := match b with
    | [n] => some (g, [(n + a) % 256], (n + a) % 256)
    | _ => none

theorem counter_ok : counter.Ok (fun _ _ _ => none) := by
  refine ⟨?_, by intro p hp; cases hp⟩
  intro b a g r h
  match b with
  | [n] => simp [counter] at h; subst h; rfl
  | [] => simp [counter] at h
  | _ :: _ :: _ => simp [counter] at h

/-- A copy counts on its own. -/
example : (runOps 4 4 1 (fun _ _ _ => none) ⟨fun _ => none, (), []⟩
      [.make 0 counter [5], .call 0 1, .copy 1 0, .call 0 10, .call 1 100, .call 0 1]).map (fun s => (s.g, s.results)) =
    some ((), [6, 16, 106, 17]) := by
  rw [C70_value_semantics]
  · rfl
  · intro o ho
    simp only [List.mem_cons, List.not_mem_nil, or_false] at ho
    rcases ho with rfl | rfl | rfl | rfl | rfl | rfl <;>
      first | trivial | exact ⟨counter_ok, rfl, by decide, by decide⟩
  · intro o ho
    simp only [List.mem_cons, List.not_mem_nil, or_false] at ho
    rcases ho with rfl | rfl | rfl | rfl | rfl | rfl <;> simp [Op.PtrOk, counter]

/-- C70: the state of a wrapper that was made from anything but a null pointer is different from
the tombstone, so an `optional` of it needs no flag, and stays so when it is called. -/
theorem C70_tombstone_partial {cap al defAl : Nat} {free : Nat → A → G → Option (G × R)} {T : FnTy G A R} {b : List Nat}
    {w : Fn G A R} (hw : construct cap al defAl T b = some w)
    (hn : single cap al defAl = true → ∀ p, T.ptr = some p → p b ≠ none) :
    w.index = -1 ∧ (tombstone cap : Fn G A R).index = 0 ∧
      ∀ a g r, w.call free a g = some r → r.2.1.index = -1 := by
  have hi : w.index = -1 := by
    unfold construct at hw
    split at hw
    · simp only [Option.some.injEq] at hw
      subst hw
      unfold Fn.index createIndirection
      simp only
      cases hs : single cap al defAl
      · rfl
      · cases hp : T.ptr with
        | none => rfl
        | some p =>
          have := hn hs p hp
          cases hb : p b with
          | none => exact absurd hb this
          | some n => simp [hb]
    · cases hw
  refine ⟨hi, rfl, ?_⟩
  intro a g r hr
  unfold Fn.call at hr
  cases hd : w.ind with
  | null => rw [hd] at hr; cases hr
  | direct n =>
    rw [hd] at hr
    simp only [Option.map_eq_some_iff] at hr
    obtain ⟨q, _, rfl⟩ := hr
    exact hi
  | defaulted T =>
    rw [hd] at hr
    simp only [Option.map_eq_some_iff] at hr
    obtain ⟨q, _, rfl⟩ := hr
    exact hi
  | through T =>
    rw [hd] at hr
    simp only [Option.map_eq_some_iff] at hr
    obtain ⟨q, _, rfl⟩ := hr
    rfl

example : ∃ w, construct 4 4 1 counter [5] = some w ∧ w.index = -1 :=
  ⟨_, rfl, (C70_tombstone_partial (cap := 4) (al := 4) (defAl := 1) (T := counter) (b := [5])
    (free := fun _ _ _ => none) rfl (by intro h; cases h)).1⟩

/-- A pointer to function. -/
def fnPtr (free : Nat → A → G → Option (G × R)) : FnTy G A R where
  size := 8
  align := 8
  empty := false
  pointer := true
  trivDefault := true
  ptr := some fun b => if b.all (· == 0) then none else some (b.foldr (fun d n => d + 256 * n) 0)
  call b a g := if b.all (· == 0) then none
    else (free (b.foldr (fun d n => d + 256 * n) 0) a g).map fun r => (r.1, b, r.2)

/-- Pointers to functions satisfy the requirements. -/
theorem fnPtr_ok (free : Nat → A → G → Option (G × R)) : (fnPtr free).Ok free := by
  constructor
  · intro b a g r h
    simp only [fnPtr] at h
    split at h
    · cases h
    · simp only [Option.map_eq_some_iff] at h
      obtain ⟨q, _, rfl⟩ := h
      rfl
  · intro p hp b a g
    simp only [fnPtr, Option.some.injEq] at hp
    subst hp
    simp only [fnPtr]
    split <;> rfl

/-- C70: the missing part is false. With capacity 0 a wrapper made from a null pointer to function
is the tombstone, so an `optional` that was given it is empty; with room for a pointer the same
wrapper is not the tombstone. -/
theorem C70_null_violated (free : Nat → A → G → Option (G × R)) :
    (∃ w, construct 0 1 1 (fnPtr free) (List.replicate 8 0) = some w ∧ w.index = 0) ∧
    (∃ w, construct 8 8 1 (fnPtr free) (List.replicate 8 0) = some w ∧ w.index = -1) :=
  ⟨⟨⟨[], .null⟩, rfl, rfl⟩, ⟨⟨List.replicate 8 0, .through (fnPtr free)⟩, by
    simp [construct, accepts, compiles, single, FnTy.rep, fnPtr, makeStorage, createIndirection], rfl⟩⟩

/-- C70: pointers to functions satisfy the constraint of the constructor for every capacity, but
for no capacity from 1 to 7 does the constructor compile. -/
theorem C70_small_capacity_rejected (free : Nat → A → G → Option (G × R)) {cap al : Nat} (defAl : Nat) (h1 : 1 ≤ cap)
    (h2 : cap ≤ 7) (b : List Nat) :
    accepts cap al (fnPtr free) = true ∧ construct cap al defAl (fnPtr free) b = none := by
  refine ⟨rfl, ?_⟩
  have hs : single cap al defAl = false := by
    unfold single; simp; omega
  unfold construct compiles
  rw [hs]
  have : ¬ (fnPtr free).rep ≤ cap := by
    show ¬ 8 ≤ cap
    omega
  simp [this]

end Verif.InplaceFunction
