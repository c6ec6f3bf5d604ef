import Verif.Base.CInt
import Verif.Base.Res

/-!
# Iterators for algorithms of the standard library (property C74)

The algorithms of the standard library cannot use iterators whose differences are bounded integers. `legacy_iterator` wraps such an
iterator; its differences are `std::ptrdiff_t`. The library passes wrapped iterators to `std::inplace_merge` (flat_map.cpp 87-92),
`std::search` (split.cpp 97-102), `std::make_heap` and `std::sort_heap` (sort.cpp 39-40) and others.

An algorithm is any program that creates, changes and compares iterators and reads and writes elements, depending on what it has seen so far.
-/

namespace Verif.Iter

open Verif

/-- The wrapped iterator type and the range that is iterated over. -/
structure Ty where
  /-- the greatest difference of two iterators (source/containers/contiguous_iterator.cpp 30) -/
  maxDiff : Nat
  /-- the iterator type has a default constructor -/
  dc : Bool
  /-- it is at least a forward iterator -/
  forward : Bool
  /-- the number of elements of the range -/
  size : Nat

/-- A wrapped iterator: the position of the element, or the value of a default constructed iterator. -/
abbrev Wrapped := Option Nat

namespace Ty

/-- source/containers/contiguous_iterator.cpp 53-55 `operator+`: leaving the range is undefined, adding 0 to a null pointer is allowed. -/
def wAdd (c : Ty) (w : Wrapped) (d : Int) : Res Wrapped :=
  match w with
  | none => if d = 0 then .ok none else .ub
  | some p => if 0 ≤ p + d ∧ p + d ≤ c.size then .ok (some (p + d).toNat) else .ub

/-- `assume_in_range<iter_difference_t<Iterator>>`. -/
def assumeDiff (c : Ty) (d : Int) : Res Int := if -c.maxDiff ≤ d ∧ d ≤ c.maxDiff then .ok d else .ub

/-- source/containers/contiguous_iterator.cpp 67-69 `operator-`; pointers to different arrays cannot be subtracted. -/
def wSub (c : Ty) (x y : Wrapped) : Res Int :=
  match x, y with
  | none, none => .ok 0
  | some p, some q => c.assumeDiff ((p : Int) - q)
  | _, _ => .ub

/-- source/containers/contiguous_iterator.cpp 51 `operator<=>`; the order of pointers to different arrays is not specified, their equality is. -/
def wCmp (x y : Wrapped) : Res Ordering :=
  match x, y with
  | none, none => .ok .eq
  | some p, some q => .ok (compare p q)
  | _, _ => .ub

/-- source/containers/legacy_iterator.cpp 86: whether the wrapped iterator is stored itself. Otherwise an optional is. -/
def alwaysExists (c : Ty) : Bool := c.dc || !c.forward

/-- source/containers/legacy_iterator.cpp 93 `legacy_iterator() = default`: it is deleted if the stored type has no default constructor.
`non_optional` (lines 52-80) declares constructors, and none without parameters; `tv::optional` has one. -/
def defaultConstructible (c : Ty) : Bool := if c.alwaysExists then false else true

end Ty

/-- The member of a `legacy_iterator` (legacy_iterator.cpp 146-147): the wrapped iterator, or an empty optional. -/
inductive Legacy where
  | holds (w : Wrapped)
  | empty
  deriving DecidableEq

namespace Legacy

/-- legacy_iterator.cpp 107-109 `**m_it`: the position that is dereferenced. -/
def deref (c : Ty) : Legacy → Res Nat
  | .holds (some p) => if p < c.size then .ok p else .ub
  | _ => .ub

/-- legacy_iterator.cpp 113-115 `to_address`; a null pointer is `none`. -/
def toAddress : Legacy → Option Nat
  | .holds w => w
  | .empty => none

/-- legacy_iterator.cpp 117-120, with its assertion. -/
def cmp : Legacy → Legacy → Res Ordering
  | .holds x, .holds y => Ty.wCmp x y
  | .empty, .empty => .ok .eq
  | _, _ => .ub

/-- legacy_iterator.cpp 121: member-wise. -/
def eq (x y : Legacy) : Bool := decide (x = y)

/-- legacy_iterator.cpp 123-127 `operator+` for any integer. -/
def add (c : Ty) (x : Legacy) (n : Int) : Res Legacy :=
  if n = 0 then .ok x
  else
    match x with
    | .empty => .ub
    | .holds w =>
      match c.assumeDiff n with
      | .ok d =>
        match c.wAdd w d with
        | .ok w => .ok (.holds w)
        | _ => .ub
      | _ => .ub

/-- legacy_iterator.cpp 128-131 `++*it.m_it`. -/
def inc (c : Ty) : Legacy → Res Legacy
  | .empty => .ub
  | .holds w =>
    match c.wAdd w 1 with
    | .ok w => .ok (.holds w)
    | _ => .ub

/-- legacy_iterator.cpp 137-140 `--*it.m_it`. -/
def dec (c : Ty) : Legacy → Res Legacy
  | .empty => .ub
  | .holds w =>
    match c.wAdd w (-1) with
    | .ok w => .ok (.holds w)
    | _ => .ub

/-- `std::ptrdiff_t`. -/
def ptrdiff : CTy := ⟨true, 64⟩

/-- legacy_iterator.cpp 133-136 `operator-`, with its assertion: the bounded difference is converted to `std::ptrdiff_t`
(source/bounded/integer.cpp 195-201). -/
def sub (c : Ty) : Legacy → Legacy → Res Int
  | .holds x, .holds y =>
    match c.wSub x y with
    | .ok d => .ok (ptrdiff.wrap d)
    | _ => .ub
  | .empty, .empty => .ok 0
  | _, _ => .ub

end Legacy

/-! ## Programs -/

/-- What an algorithm can do with variables that hold iterators. `null` is a variable with a default constructed iterator: of the
legacy iterator, or a legacy iterator of a default constructed wrapped iterator. -/
inductive Op (V : Type) where
  | null (i : Nat)
  | copy (i j : Nat)
  | inc (i : Nat)
  | dec (i : Nat)
  | add (i j : Nat) (n : Int)
  | sub (i j : Nat)
  | eq (i j : Nat)
  | cmp (i j : Nat)
  | address (i : Nat)
  | read (i : Nat)
  | write (i : Nat) (v : V)

/-- What it sees. -/
inductive Obs (V : Type) where
  | unit
  | diff (d : Int)
  | bool (b : Bool)
  | order (o : Ordering)
  | address (a : Option Nat)
  | value (v : V)

/-- A program decides what to do next by what it has seen. -/
inductive Prog (V R : Type) where
  | ret (r : R)
  | act (op : Op V) (next : Obs V → Prog V R)

variable {V R : Type}

/-- The variables and the elements of the range. -/
structure St (I V : Type) where
  it : Nat → Option I
  elem : Nat → V

/-- One value of a function is changed. -/
def put {X : Type} (f : Nat → X) (i : Nat) (x : X) : Nat → X := fun k => if k = i then x else f k

namespace Legacy

/-- The result goes to a variable. -/
def set (s : St Legacy V) (i : Nat) : Res Legacy → Res (St Legacy V × Obs V)
  | .ok x => .ok (⟨put s.it i (some x), s.elem⟩, .unit)
  | _ => .ub

/-- The result is observed. -/
def see (s : St Legacy V) {X : Type} (f : X → Obs V) : Res X → Res (St Legacy V × Obs V)
  | .ok x => .ok (s, f x)
  | _ => .ub

/-- One operation on legacy iterators. -/
def step (c : Ty) (s : St Legacy V) : Op V → Res (St Legacy V × Obs V)
  | .null i => set s i (.ok (if c.alwaysExists then .holds none else .empty))
  | .copy i j =>
    match s.it j with
    | some x => set s i (.ok x)
    | none => .ub
  | .inc i =>
    match s.it i with
    | some x => set s i (x.inc c)
    | none => .ub
  | .dec i =>
    match s.it i with
    | some x => set s i (x.dec c)
    | none => .ub
  | .add i j n =>
    match s.it j with
    | some x => set s i (x.add c n)
    | none => .ub
  | .sub i j =>
    match s.it i, s.it j with
    | some x, some y => see s .diff (x.sub c y)
    | _, _ => .ub
  | .eq i j =>
    match s.it i, s.it j with
    | some x, some y => see s .bool (.ok (x.eq y))
    | _, _ => .ub
  | .cmp i j =>
    match s.it i, s.it j with
    | some x, some y => see s .order (x.cmp y)
    | _, _ => .ub
  | .address i =>
    match s.it i with
    | some x => see s .address (.ok x.toAddress)
    | none => .ub
  | .read i =>
    match s.it i with
    | some x => see s .value (match x.deref c with | .ok p => .ok (s.elem p) | _ => .ub)
    | none => .ub
  | .write i v =>
    match s.it i with
    | some x =>
      match x.deref c with
      | .ok p => .ok (⟨s.it, put s.elem p v⟩, .unit)
      | _ => .ub
    | none => .ub

/-- Running a program with legacy iterators. -/
def run (c : Ty) (s : St Legacy V) : Prog V R → Res ((Nat → V) × R)
  | .ret r => .ok (s.elem, r)
  | .act op next =>
    match step c s op with
    | .ok (s, o) => run c s (next o)
    | _ => .ub

end Legacy

/-! ## Specification: iterators are positions -/

/-- A position of the range of `n` elements, or a value initialised iterator. Operations without a meaning are `none`: the program must
not use them. -/
def specStep (n : Nat) (s : St (Option Nat) V) : Op V → Option (St (Option Nat) V × Obs V)
  | .null i => some (⟨put s.it i (some none), s.elem⟩, .unit)
  | .copy i j => (s.it j).map fun x => (⟨put s.it i (some x), s.elem⟩, .unit)
  | .inc i =>
    match s.it i with
    | some (some p) => if p < n then some (⟨put s.it i (some (some (p + 1))), s.elem⟩, .unit) else none
    | _ => none
  | .dec i =>
    match s.it i with
    | some (some (p + 1)) => some (⟨put s.it i (some (some p)), s.elem⟩, .unit)
    | _ => none
  | .add i j d =>
    match s.it j with
    | some (some p) => if 0 ≤ p + d ∧ p + d ≤ n then some (⟨put s.it i (some (some (p + d).toNat)), s.elem⟩, .unit) else none
    | some none => if d = 0 then some (⟨put s.it i (some none), s.elem⟩, .unit) else none
    | none => none
  | .sub i j =>
    match s.it i, s.it j with
    | some (some p), some (some q) => some (s, .diff (p - q))
    | some none, some none => some (s, .diff 0)
    | _, _ => none
  | .eq i j =>
    match s.it i, s.it j with
    | some x, some y => some (s, .bool (x == y))
    | _, _ => none
  | .cmp i j =>
    match s.it i, s.it j with
    | some (some p), some (some q) => some (s, .order (compare p q))
    | some none, some none => some (s, .order .eq)
    | _, _ => none
  | .address i => (s.it i).map fun x => (s, .address x)
  | .read i =>
    match s.it i with
    | some (some p) => if p < n then some (s, .value (s.elem p)) else none
    | _ => none
  | .write i v =>
    match s.it i with
    | some (some p) => if p < n then some (⟨s.it, put s.elem p v⟩, .unit) else none
    | _ => none

/-- The meaning of a program with positions as iterators. -/
def specRun (n : Nat) (s : St (Option Nat) V) : Prog V R → Option ((Nat → V) × R)
  | .ret r => some (s.elem, r)
  | .act op next =>
    match specStep n s op with
    | some (s, o) => specRun n s (next o)
    | none => none

/-- The legacy iterator of a position. -/
def wrap (c : Ty) : Option Nat → Legacy
  | some p => .holds (some p)
  | none => if c.alwaysExists then .holds none else .empty

/-- The variables hold the legacy iterators of positions of the range. -/
structure Rel (c : Ty) (s : St Legacy V) (a : St (Option Nat) V) : Prop where
  it : ∀ i, s.it i = (a.it i).map (wrap c)
  elem : s.elem = a.elem
  inside : ∀ i p, a.it i = some (some p) → p ≤ c.size

theorem put_map {X Y : Type} (f : X → Y) (g : Nat → Option X) (h : Nat → Option Y) (e : ∀ i, h i = (g i).map f) (i : Nat) (x : X) :
    ∀ k, put h i (some (f x)) k = (put g i (some x) k).map f := by
  intro k
  unfold put
  split
  · rfl
  · exact e k

theorem Rel.put {c : Ty} {s : St Legacy V} {a : St (Option Nat) V} (r : Rel c s a) (i : Nat) (x : Option Nat) (hx : ∀ p, x = some p → p ≤ c.size) :
    Rel c ⟨Iter.put s.it i (some (wrap c x)), s.elem⟩ ⟨Iter.put a.it i (some x), a.elem⟩ := by
  refine ⟨put_map (wrap c) _ _ r.it i x, r.elem, fun k p hk => ?_⟩
  simp only [Iter.put] at hk
  split at hk
  · exact hx p (by simpa using hk)
  · exact r.inside k p hk

theorem wrap_inj (c : Ty) (x y : Option Nat) : wrap c x = wrap c y ↔ x = y := by
  cases x <;> cases y <;> simp [wrap] <;> split <;> simp

theorem ptrdiff_wrap {d : Int} (h1 : -(2 ^ 63) ≤ d) (h2 : d < 2 ^ 63) : Legacy.ptrdiff.wrap d = d :=
  CTy.wrap_of_fits (by decide) ⟨by simpa [CTy.lo, Legacy.ptrdiff] using h1, by simp only [CTy.hi, Legacy.ptrdiff, if_true]; omega⟩

theorem wAdd_some {c : Ty} {p : Nat} {d : Int} (h : 0 ≤ p + d ∧ p + d ≤ c.size) : c.wAdd (some p) d = .ok (some (p + d).toNat) := if_pos h

theorem add_wrap {c : Ty} (h1 : c.size ≤ c.maxDiff) {p : Nat} (hp : p ≤ c.size) {d : Int} (h : 0 ≤ p + d ∧ p + d ≤ c.size) :
    (Legacy.holds (some p)).add c d = .ok (.holds (some (p + d).toNat)) := by
  unfold Legacy.add
  by_cases h0 : d = 0
  · subst h0; simp
  · rw [if_neg h0]
    simp only [Ty.assumeDiff]
    rw [if_pos (by omega)]
    simp only [wAdd_some h]

/-- One operation. -/
theorem step_spec {c : Ty} (h1 : c.size ≤ c.maxDiff) (h2 : c.size < 2 ^ 63) {s : St Legacy V} {a a' : St (Option Nat) V} (r : Rel c s a) {op : Op V}
    {o : Obs V} (h : specStep c.size a op = some (a', o)) : ∃ s', Legacy.step c s op = .ok (s', o) ∧ Rel c s' a' := by
  cases op with
  | null i =>
    simp only [specStep, Option.some.injEq, Prod.mk.injEq] at h
    obtain ⟨rfl, rfl⟩ := h
    exact ⟨_, rfl, r.put i none (by simp)⟩
  | copy i j =>
    simp only [specStep, Option.map_eq_some_iff, Prod.mk.injEq] at h
    obtain ⟨x, hj, rfl, rfl⟩ := h
    simp only [Legacy.step, r.it j, hj, Option.map_some, Legacy.set]
    exact ⟨_, rfl, r.put i x fun p hp => r.inside j p (by rw [hj, hp])⟩
  | inc i =>
    simp only [specStep] at h
    split at h
    · rename_i p hi
      split at h
      · rename_i hp
        simp only [Option.some.injEq, Prod.mk.injEq] at h
        obtain ⟨rfl, rfl⟩ := h
        have e : c.wAdd (some p) 1 = .ok (some (p + 1)) := wAdd_some (by omega)
        simp only [Legacy.step, r.it i, hi, Option.map_some, wrap, Legacy.inc, e, Legacy.set]
        exact ⟨_, rfl, r.put i (some (p + 1)) (by simp; omega)⟩
      · cases h
    · cases h
  | dec i =>
    simp only [specStep] at h
    split at h
    · rename_i p hi
      simp only [Option.some.injEq, Prod.mk.injEq] at h
      obtain ⟨rfl, rfl⟩ := h
      have hp := r.inside i _ hi
      have e : c.wAdd (some (p + 1)) (-1) = .ok (some p) := by
        have := wAdd_some (c := c) (p := p + 1) (d := -1) (by omega)
        rw [this, show (((p + 1 : Nat) : Int) + -1).toNat = p by omega]
      simp only [Legacy.step, r.it i, hi, Option.map_some, wrap, Legacy.dec, e, Legacy.set]
      exact ⟨_, rfl, r.put i (some p) (by simp; omega)⟩
    · cases h
  | add i j d =>
    simp only [specStep] at h
    split at h
    · rename_i p hj
      split at h
      · rename_i hd
        simp only [Option.some.injEq, Prod.mk.injEq] at h
        obtain ⟨rfl, rfl⟩ := h
        simp only [Legacy.step, r.it j, hj, Option.map_some, wrap, add_wrap h1 (r.inside j p hj) hd, Legacy.set]
        exact ⟨_, rfl, r.put i (some _) (by simp; omega)⟩
      · cases h
    · rename_i hj
      split at h
      · rename_i hd
        subst hd
        simp only [Option.some.injEq, Prod.mk.injEq] at h
        obtain ⟨rfl, rfl⟩ := h
        simp only [Legacy.step, r.it j, hj, Option.map_some, Legacy.add, if_true, Legacy.set]
        exact ⟨_, rfl, r.put i none (by simp)⟩
      · cases h
    · cases h
  | sub i j =>
    simp only [specStep] at h
    split at h
    · rename_i p q hi hj
      simp only [Option.some.injEq, Prod.mk.injEq] at h
      obtain ⟨rfl, rfl⟩ := h
      have hp := r.inside i _ hi
      have hq := r.inside j _ hj
      simp only [Legacy.step, r.it i, r.it j, hi, hj, Option.map_some, wrap, Legacy.sub, Ty.wSub, Ty.assumeDiff, Legacy.see]
      rw [if_pos (by omega)]
      simp only []
      rw [ptrdiff_wrap (by omega) (by omega)]
      exact ⟨_, rfl, r⟩
    · rename_i hi hj
      simp only [Option.some.injEq, Prod.mk.injEq] at h
      obtain ⟨rfl, rfl⟩ := h
      simp only [Legacy.step, r.it i, r.it j, hi, hj, Option.map_some, wrap]
      cases c.alwaysExists with
      | true => exact ⟨_, rfl, r⟩
      | false => exact ⟨_, rfl, r⟩
    · cases h
  | eq i j =>
    simp only [specStep] at h
    split at h
    · rename_i x y hi hj
      simp only [Option.some.injEq, Prod.mk.injEq] at h
      obtain ⟨rfl, rfl⟩ := h
      simp only [Legacy.step, r.it i, r.it j, hi, hj, Option.map_some, Legacy.see, Legacy.eq, wrap_inj]
      exact ⟨_, by congr 3; exact (Bool.beq_eq_decide_eq x y).symm, r⟩
    · cases h
  | cmp i j =>
    simp only [specStep] at h
    split at h
    · rename_i p q hi hj
      simp only [Option.some.injEq, Prod.mk.injEq] at h
      obtain ⟨rfl, rfl⟩ := h
      simp only [Legacy.step, r.it i, r.it j, hi, hj, Option.map_some, wrap, Legacy.cmp, Ty.wCmp, Legacy.see]
      exact ⟨_, rfl, r⟩
    · rename_i hi hj
      simp only [Option.some.injEq, Prod.mk.injEq] at h
      obtain ⟨rfl, rfl⟩ := h
      simp only [Legacy.step, r.it i, r.it j, hi, hj, Option.map_some, wrap]
      cases c.alwaysExists with
      | true => exact ⟨_, rfl, r⟩
      | false => exact ⟨_, rfl, r⟩
    · cases h
  | address i =>
    simp only [specStep, Option.map_eq_some_iff, Prod.mk.injEq] at h
    obtain ⟨x, hi, rfl, rfl⟩ := h
    have e : (wrap c x).toAddress = x := by
      cases x with
      | some p => rfl
      | none => simp only [wrap]; cases c.alwaysExists <;> rfl
    simp only [Legacy.step, r.it i, hi, Option.map_some, Legacy.see, e]
    exact ⟨_, rfl, r⟩
  | read i =>
    simp only [specStep] at h
    split at h
    · rename_i p hi
      split at h
      · rename_i hp
        simp only [Option.some.injEq, Prod.mk.injEq] at h
        obtain ⟨rfl, rfl⟩ := h
        simp only [Legacy.step, r.it i, hi, Option.map_some, wrap, Legacy.deref, if_pos hp, Legacy.see, r.elem]
        exact ⟨_, rfl, r⟩
      · cases h
    · cases h
  | write i v =>
    simp only [specStep] at h
    split at h
    · rename_i p hi
      split at h
      · rename_i hp
        simp only [Option.some.injEq, Prod.mk.injEq] at h
        obtain ⟨rfl, rfl⟩ := h
        simp only [Legacy.step, r.it i, hi, Option.map_some, wrap, Legacy.deref, if_pos hp, r.elem]
        exact ⟨_, rfl, r.it, rfl, r.inside⟩
      · cases h
    · cases h

/-- The variables 0 and 1 hold the begin and the end of the range. -/
def start (n : Nat) (elem : Nat → V) : St (Option Nat) V := ⟨fun i => if i = 0 then some (some 0) else if i = 1 then some (some n) else none, elem⟩

/-- The same with the iterators that `make_legacy_iterator` or `maybe_legacy_iterator` (legacy_iterator.cpp 150-160) or `legacy_range`
(source/containers/legacy_range.cpp 20-25) make. -/
def Legacy.start (n : Nat) (elem : Nat → V) : St Legacy V :=
  ⟨fun i => if i = 0 then some (.holds (some 0)) else if i = 1 then some (.holds (some n)) else none, elem⟩

theorem run_spec {c : Ty} (h1 : c.size ≤ c.maxDiff) (h2 : c.size < 2 ^ 63) : ∀ (prog : Prog V R) {s : St Legacy V} {a : St (Option Nat) V} {res : (Nat → V) × R},
    Rel c s a → specRun c.size a prog = some res → Legacy.run c s prog = .ok res
  | .ret r, s, a, res, hr, h => by
    simp only [specRun, Option.some.injEq] at h
    rw [← h, Legacy.run, hr.elem]
  | .act op next, s, a, res, hr, h => by
    rw [specRun] at h
    cases e : specStep c.size a op with
    | none => rw [e] at h; cases h
    | some q =>
      obtain ⟨a', o⟩ := q
      rw [e] at h
      obtain ⟨s', e', hr'⟩ := step_spec h1 h2 hr e
      rw [Legacy.run, e']
      exact run_spec h1 h2 (next o) hr' h

/-- **C74**: an algorithm that is given the legacy iterators of a range sees what it would see with plain positions, ends with the same
result and leaves the same elements, whatever it does with the iterators, as long as it has a meaning for positions. Missing: ranges with
`2 ^ 63` or more elements, see `C74_difference_violated`. -/
theorem C74_programs_partial {c : Ty} (h1 : c.size ≤ c.maxDiff) (h2 : c.size < 2 ^ 63) (prog : Prog V R) (elem : Nat → V) {res : (Nat → V) × R}
    (h : specRun c.size (start c.size elem) prog = some res) : Legacy.run c (Legacy.start c.size elem) prog = .ok res := by
  refine run_spec h1 h2 prog ⟨fun i => ?_, rfl, fun i p hi => ?_⟩ h
  · simp only [Legacy.start, start]
    split
    · rfl
    · split <;> rfl
  · simp only [start] at hi
    split at hi
    · simp only [Option.some.injEq] at hi; omega
    · split at hi
      · simp only [Option.some.injEq] at hi; omega
      · cases hi

/-- The distance from the begin to the end. -/
def distance : Prog V Int := .act (.sub 1 0) fun
  | .diff d => .ret d
  | _ => .ret 0

/-- The property fails for every range with `2 ^ 63` or more elements, such as `integer_range(0_bi, constant<2 ^ 64 - 1>)`: the distance from the
begin to the end is not the number of elements. -/
theorem C74_difference_violated {c : Ty} (h1 : c.size ≤ c.maxDiff) (h2 : 2 ^ 63 ≤ c.size) (elem : Nat → V) :
    specRun c.size (start c.size elem) distance = some (elem, (c.size : Int)) ∧
      ∃ d : Int, Legacy.run c (Legacy.start c.size elem) distance = .ok (elem, d) ∧ d ≠ c.size := by
  refine ⟨by simp [specRun, distance, specStep, start], Legacy.ptrdiff.wrap c.size, ?_, ?_⟩
  · simp only [Legacy.run, distance, Legacy.step, Legacy.start, Legacy.sub, Ty.wSub, Ty.assumeDiff]
    simp only [Nat.one_ne_zero, if_true, if_false]
    rw [if_pos (by omega)]
    simp [Legacy.see, Legacy.run]
  · have := (CTy.wrap_fits (t := Legacy.ptrdiff) (by decide) c.size).2
    simp only [CTy.hi, Legacy.ptrdiff, if_true] at this ⊢
    intro e
    rw [e] at this
    omega

/-- Legacy iterators of forward iterators should have a default constructor, as the algorithms of the standard library may rely on it. They have one
exactly if the wrapped iterator has none. -/
theorem C74_default_violated (c : Ty) (h : c.forward = true) : c.defaultConstructible = !c.dc := by
  simp only [Ty.defaultConstructible, Ty.alwaysExists, h, Bool.not_true, Bool.or_false]
  cases c.dc <;> rfl

/-! ## Examples -/

/-- Iterators of `array<int, 3>`. -/
def exTy : Ty := ⟨3, true, true, 3⟩

/-- A program that looks for a value and replaces it, as `std::find` and an assignment would. -/
def exFind (wanted new : Nat) : Nat → Prog Nat Bool
  | 0 => .ret false
  | fuel + 1 => .act (.eq 0 1) fun
    | .bool true => .ret false
    | _ => .act (.read 0) fun
      | .value v => if v = wanted then .act (.write 0 new) fun _ => .ret true else .act (.inc 0) fun _ => exFind wanted new fuel
      | _ => .ret false

/-- The hypotheses can be met: the search finds the value at the second position. -/
example : ∃ f, Legacy.run exTy (Legacy.start 3 fun k => k * 10) (exFind 10 7 4) = .ok (f, true) ∧ f 1 = 7 ∧ f 2 = 20 :=
  ⟨_, C74_programs_partial (c := exTy) (by decide) (by decide) _ _ rfl, rfl, rfl⟩

example : (specRun 3 (start 3 fun k => k) (distance (V := Nat))).map (·.2) = some 3 := rfl

/-- Iterators of a range of all numbers of 64 bits but one. -/
example : ∃ d : Int, Legacy.run ⟨2 ^ 64 - 1, true, true, 2 ^ 64 - 1⟩ (Legacy.start (2 ^ 64 - 1) fun k => k) distance = .ok (fun k => k, d) ∧ d = -1 :=
  ⟨_, rfl, by decide⟩

example : exTy.forward = true := rfl

end Verif.Iter
