import Verif.Maps.Throws

/-!
# When maps allocate memory (C81)

How often the operations of `Maps/Throws.lean` allocate memory, copy and make elements.
-/

namespace Verif.Maps

open Verif.Algo Verif.Algo.Mem Prog

variable {κ μ : Type}

/-! ## Specification -/

/-- A call that allocates. -/
def isAlloc : MapCall κ μ → Bool
  | .alloc => true
  | _ => false

/-- A call that makes or copies an element. -/
def isNew : MapCall κ μ → Bool
  | .make => true
  | .copy _ => true
  | _ => false

/-- The number of calls of a kind, if comparisons answer as `f` says. -/
def howOften {R : Type} (k : MapCall κ μ → Bool) (f : MapCall κ μ → Bool) (a : MapProg κ μ R) : Nat := (Ask.calls f a).countP k

/-! ## Theorems -/

section

variable {R R' : Type} {k f : MapCall κ μ → Bool}

@[simp] theorem howOften_pure (r : R) : howOften k f (pure r : MapProg κ μ R) = 0 := rfl
@[simp] theorem howOften_lift (r : Option R) : howOften k f (lift r : MapProg κ μ R) = 0 := rfl
@[simp] theorem howOften_call (s : Contents κ μ) (q : MapCall κ μ) : howOften k f (call s q) = if k q then 1 else 0 := by
  simp [howOften, call, Ask.calls, List.countP_cons]

theorem howOften_bind' (g : R → MapProg κ μ R') : ∀ (a : Ask (Contents κ μ) (MapCall κ μ) (Option R)),
    howOften k f (Prog.bind a g) = howOften k f a + ((Ask.run f a).elim 0 fun r => howOften k f (g r))
  | .done none => rfl
  | .done (some x) => by simp [howOften, Prog.bind, Ask.bind, Ask.calls, Ask.run]
  | .ask s q c => by
    have := howOften_bind' g (c (f q))
    have e : howOften k f (Prog.bind (.ask s q c) g) = howOften k f (Prog.bind (c (f q)) g) + if k q then 1 else 0 := by
      simp only [howOften, Prog.bind, Ask.bind, Ask.calls, List.countP_cons]
    have e' : howOften k f (.ask s q c : MapProg κ μ R) = howOften k f (c (f q)) + if k q then 1 else 0 := by
      simp only [howOften, Ask.calls, List.countP_cons]
    rw [e, e', this, Ask.run]
    omega

theorem howOften_bind (g : R → MapProg κ μ R') (a : MapProg κ μ R) :
    howOften k f (a >>= g) = howOften k f a + ((a.run f).elim 0 fun r => howOften k f (g r)) := howOften_bind' g a

theorem howOften_none (g : R → MapProg κ μ R') {a : MapProg κ μ R} (ha : howOften k f a = 0) (hg : ∀ r, howOften k f (g r) = 0) : howOften k f (a >>= g) = 0 := by
  rw [howOften_bind, ha]
  cases a.run f with
  | none => rfl
  | some r => simp [hg]

theorem findIfLoopA_none {m : Mem (κ × μ)} {p : κ × μ → MapProg κ μ Bool} (hp : ∀ x, howOften k f (p x) = 0) : ∀ n first, howOften k f (findIfLoopA m p n first) = 0
  | 0, first => rfl
  | n + 1, first => howOften_none _ rfl fun v => howOften_none _ (hp v) fun b => by
      cases b with
      | true => rfl
      | false => exact findIfLoopA_none hp n (first + 1)

theorem findIfA_none {m : Mem (κ × μ)} {p : κ × μ → MapProg κ μ Bool} (hp : ∀ x, howOften k f (p x) = 0) (first last : Nat) : howOften k f (findIfA m p first last) = 0 := by
  unfold findIfA
  split
  · exact findIfLoopA_none hp _ _
  · rfl

theorem partitionPointLoopA_none {m : Mem (κ × μ)} {p : κ × μ → MapProg κ μ Bool} (hp : ∀ x, howOften k f (p x) = 0) : ∀ count first,
    howOften k f (partitionPointLoopA m p first count) = 0 := by
  intro count
  induction count using Nat.strong_induction_on with
  | _ count ih =>
    intro first
    rw [partitionPointLoopA]
    split
    · rfl
    · refine howOften_none _ rfl fun v => howOften_none _ (hp v) fun b => ?_
      cases b with
      | true => exact ih _ (by omega) _
      | false => exact ih _ (by omega) _

theorem partitionPointA_none {m : Mem (κ × μ)} {p : κ × μ → MapProg κ μ Bool} (hp : ∀ x, howOften k f (p x) = 0) (first last : Nat) :
    howOften k f (partitionPointA m p first last) = 0 := by
  unfold partitionPointA
  split
  · exact partitionPointLoopA_none hp _ _
  · rfl

theorem allocIf_often (c : Prop) [Decidable c] (s : Contents κ μ) : howOften isAlloc f (allocIf c s) = if c then 1 else 0 := by
  unfold allocIf
  split
  · exact (howOften_bind _ _).trans rfl
  · rfl

theorem allocIf_new (c : Prop) [Decidable c] (s : Contents κ μ) : howOften isNew f (allocIf c s) = 0 := by
  unfold allocIf
  split
  · exact (howOften_bind _ _).trans rfl
  · rfl

end

variable (C : Cfg κ μ) (L : Lin κ)

theorem keyedUpperBoundA_none {k : MapCall κ μ → Bool} (hk : ∀ a b, k (.less a b) = false) (f : MapCall κ μ → Bool) (xs : List (κ × μ)) (key : κ) :
    howOften k f (keyedUpperBoundA xs key) = 0 :=
  partitionPointA_none (k := k) (f := f) (m := memOf xs) (p := notFn fun e : κ × μ => call (full xs) (.less key e.1))
    (fun x => howOften_none _ (by rw [howOften_call, hk]; rfl) fun _ => rfl) 0 xs.length

theorem linFindA_none {k : MapCall κ μ → Bool} (hk : ∀ a b, k (.equal a b) = false) (f : MapCall κ μ → Bool) (xs : List (κ × μ)) (key : κ) :
    howOften k f (linFindA xs key) = 0 :=
  findIfA_none (fun x => by rw [howOften_call, hk]; rfl) _ _

theorem insertAtA_often (f : MapCall κ μ → Bool) (cap : Nat) (xs : List (κ × μ)) (i : Nat) (e : κ × μ) :
    howOften isAlloc f (insertAtA C cap xs i e) = (if cap ≤ xs.length then 1 else 0) ∧ howOften isNew f (insertAtA C cap xs i e) = 1 := by
  unfold insertAtA
  constructor
  · rw [howOften_bind, allocIf_often, allocIf_run]
    simp only [Option.elim_some, howOften_bind, howOften_call, run_call, howOften_lift, isAlloc, Bool.false_eq_true, if_false, Nat.add_zero]
    by_cases h : cap ≤ xs.length
    · rw [if_pos h, if_pos (by omega)]
    · rw [if_neg h, if_neg (by omega)]
  · rw [howOften_bind, allocIf_new, allocIf_run]
    simp [howOften_bind, isNew]

/-- Inserting an element into a sorted map allocates memory at most once, and exactly if the key is new and there is no room for another element; it makes an element exactly if
the key is new. -/
theorem C81_flat_insert_allocations (cap : Nat) (xs : List (κ × μ)) (key : κ) (mapped : μ) {ys : List (κ × μ)} {i : Nat} {inserted : Bool}
    (h : C.lazyInsert xs key mapped = some (ys, i, inserted)) :
    howOften isAlloc (answers C L) (lazyInsertA C cap xs key mapped) = (if inserted = true ∧ cap ≤ xs.length then 1 else 0) ∧
      howOften isNew (answers C L) (lazyInsertA C cap xs key mapped) = if inserted = true then 1 else 0 := by
  have hrun := (lazyInsertA_run (C := C) (L := L) cap xs key mapped).trans h
  have go : ∀ k : MapCall κ μ → Bool, (∀ a b, k (.less a b) = false) → howOften k (answers C L) (lazyInsertA C cap xs key mapped) =
      if inserted = true then howOften k (answers C L) (insertAtA C cap xs i (key, mapped)) else 0 := by
    intro k hk
    unfold lazyInsertA at hrun ⊢
    rw [run_bind] at hrun
    rw [howOften_bind, keyedUpperBoundA_none hk, Nat.zero_add]
    cases hp : (keyedUpperBoundA xs key).run (answers C L) with
    | none => rw [hp] at hrun; cases hrun
    | some p =>
      rw [hp] at hrun
      simp only [Option.bind_some, run_ite, run_bind, run_lift, run_call, run_pure] at hrun
      simp only [Option.elim_some]
      have step : ∀ {b}, (Option.bind ((insertAtA C cap xs p (key, mapped)).run (answers C L)) fun x => some (x, p, true)) = some (ys, i, b) → p = i ∧ b = true := by
        intro b h
        cases e : (insertAtA C cap xs p (key, mapped)).run (answers C L) with
        | none => rw [e] at h; cases h
        | some z => rw [e] at h; simp at h; exact ⟨h.2.1, h.2.2⟩
      have fin : howOften k (answers C L) (do let ys ← insertAtA C cap xs p (key, mapped); pure (ys, p, true)) = howOften k (answers C L) (insertAtA C cap xs p (key, mapped)) := by
        rw [howOften_bind]
        cases (insertAtA C cap xs p (key, mapped)).run (answers C L) <;> rfl
      by_cases h0 : p = 0
      · rw [if_pos h0] at hrun
        obtain ⟨rfl, rfl⟩ := step hrun
        rw [if_pos h0, if_pos rfl, fin]
      · rw [if_neg h0] at hrun
        rw [if_neg h0, howOften_bind]
        cases hb : xs[p - 1]? with
        | none => rw [hb] at hrun; cases hrun
        | some before =>
          rw [hb] at hrun
          simp only [Option.bind_some] at hrun
          simp only [howOften_lift, run_lift, Option.elim_some, howOften_bind, howOften_call, hk, run_call]
          split at hrun
          · next hc =>
            obtain ⟨rfl, rfl⟩ := step hrun
            rw [if_pos rfl, if_pos hc]
            simpa using fin
          · next hc =>
            simp at hrun
            obtain ⟨-, -, rfl⟩ := hrun
            rw [if_neg hc]; rfl
  constructor
  · rw [go isAlloc fun _ _ => rfl, (insertAtA_often C _ cap xs i _).1]
    by_cases hi : inserted = true <;> simp [hi]
  · rw [go isNew fun _ _ => rfl, (insertAtA_often C _ cap xs i _).2]

/-- The same for a multimap, where every element is inserted. -/
theorem C81_multi_insert_allocations (cap : Nat) (xs : List (κ × μ)) (key : κ) (mapped : μ) {r : List (κ × μ) × Nat} (h : C.lazyInsertMulti xs key mapped = some r) :
    howOften isAlloc (answers C L) (lazyInsertMultiA C cap xs key mapped) = (if cap ≤ xs.length then 1 else 0) ∧
      howOften isNew (answers C L) (lazyInsertMultiA C cap xs key mapped) = 1 := by
  have hrun := (lazyInsertMultiA_run (C := C) (L := L) cap xs key mapped).trans h
  have go : ∀ k : MapCall κ μ → Bool, (∀ a b, k (.less a b) = false) → ∃ i, howOften k (answers C L) (lazyInsertMultiA C cap xs key mapped) =
      howOften k (answers C L) (insertAtA C cap xs i (key, mapped)) := by
    intro k hk
    unfold lazyInsertMultiA at hrun ⊢
    rw [run_bind] at hrun
    rw [howOften_bind, keyedUpperBoundA_none hk, Nat.zero_add]
    cases hp : (keyedUpperBoundA xs key).run (answers C L) with
    | none => rw [hp] at hrun; cases hrun
    | some p =>
      refine ⟨p, ?_⟩
      rw [Option.elim_some, howOften_bind]
      cases (insertAtA C cap xs p (key, mapped)).run (answers C L) <;> rfl
  obtain ⟨i, h1⟩ := go isAlloc fun _ _ => rfl
  obtain ⟨j, h2⟩ := go isNew fun _ _ => rfl
  exact ⟨h1.trans (insertAtA_often C _ cap xs i _).1, h2.trans (insertAtA_often C _ cap xs j _).2⟩

/-- The same for an unsorted map. -/
theorem C81_linear_insert_allocations (cap : Nat) (xs : List (κ × μ)) (key : κ) (mapped : μ) {ys : List (κ × μ)} {i : Nat} {inserted : Bool}
    (h : L.lazyInsert xs key mapped = some (ys, i, inserted)) :
    howOften isAlloc (answers C L) (linLazyInsertA L cap xs key mapped) = (if inserted = true ∧ cap ≤ xs.length then 1 else 0) ∧
      howOften isNew (answers C L) (linLazyInsertA L cap xs key mapped) = if inserted = true then 1 else 0 := by
  have hrun := (linLazyInsertA_run (C := C) (L := L) cap xs key mapped).trans h
  have go : ∀ k : MapCall κ μ → Bool, (∀ a b, k (.equal a b) = false) → howOften k (answers C L) (linLazyInsertA L cap xs key mapped) =
      if inserted = true then howOften k (answers C L) (allocIf (cap ≤ xs.length) (full xs)) + (if k .make then 1 else 0) else 0 := by
    intro k hk
    unfold linLazyInsertA at hrun ⊢
    rw [run_bind] at hrun
    rw [howOften_bind, linFindA_none hk, Nat.zero_add]
    cases hp : (linFindA xs key).run (answers C L) with
    | none => rw [hp] at hrun; cases hrun
    | some p =>
      rw [hp] at hrun
      simp only [Option.bind_some, run_ite, run_bind, run_lift, run_call, run_pure, allocIf_run] at hrun
      simp only [Option.elim_some]
      by_cases h0 : p ≠ xs.length
      · rw [if_pos h0] at hrun ⊢
        simp at hrun
        obtain ⟨-, -, rfl⟩ := hrun
        rfl
      · rw [if_neg h0] at hrun ⊢
        simp only [howOften_bind, allocIf_run, Option.elim_some, howOften_call, run_call]
        split at hrun
        · next hm =>
          simp at hrun
          obtain ⟨-, -, rfl⟩ := hrun
          rw [if_pos hm, if_pos rfl, howOften_pure, Nat.add_zero]
        · cases hrun
  constructor
  · rw [go isAlloc fun _ _ => rfl, allocIf_often]
    by_cases hi : inserted = true <;> simp [hi, isAlloc]
  · rw [go isNew fun _ _ => rfl, allocIf_new]
    simp [isNew]

theorem copyAll_often (f : MapCall κ μ → Bool) (s : Contents κ μ) : ∀ es : List (κ × μ), howOften isAlloc f (copyAll s es) = 0 ∧ howOften isNew f (copyAll s es) = es.length
  | [] => ⟨rfl, rfl⟩
  | e :: es => by
    have ih := copyAll_often f s es
    simp only [copyAll, howOften_bind, howOften_call, run_call, Option.elim_some, ih]
    exact ⟨rfl, by simp [isNew]; omega⟩

/-- Appending a range that knows its size allocates memory once, and only if there is no room for all of its elements; every element is copied once. -/
theorem C81_append_allocations (f : MapCall κ μ → Bool) (grow : Nat → Nat) (cap mx : Nat) (xs init : List (κ × μ)) :
    howOften isAlloc f (appendA true grow cap mx xs init) = (if cap < xs.length + init.length then 1 else 0) ∧
      howOften isNew f (appendA true grow cap mx xs init) = init.length := by
  unfold appendA
  simp only [if_true, howOften_bind, allocIf_run, Option.elim_some, copyAll_run, howOften_lift, (copyAll_often f _ init).1, (copyAll_often f _ init).2, allocIf_often, allocIf_new]
  refine ⟨?_, by omega⟩
  by_cases h : cap < xs.length + init.length
  · rw [if_pos h, if_pos (by omega)]
  · rw [if_neg h, if_neg (by omega)]

theorem pushBackA_often (f : MapCall κ μ → Bool) (cap mx : Nat) (xs : List (κ × μ)) (e : κ × μ) :
    howOften isAlloc f (pushBackA cap mx xs e) = (if cap ≤ xs.length then 1 else 0) ∧ howOften isNew f (pushBackA cap mx xs e) = 1 := by
  unfold pushBackA
  simp [howOften_bind, allocIf_run, allocIf_often, allocIf_new, isNew, isAlloc]

/-- The elements of a range that does not know its size are copied once each, too; memory is allocated only if there is no room for all of them. -/
theorem C81_append_one_by_one (f : MapCall κ μ → Bool) (grow : Nat → Nat) (mx : Nat) : ∀ (init : List (κ × μ)) (cap : Nat) (xs : List (κ × μ)), xs.length + init.length ≤ mx →
    howOften isNew f (appendA false grow cap mx xs init) = init.length ∧
      (howOften isAlloc f (appendA false grow cap mx xs init) = 0 ↔ init = [] ∨ xs.length + init.length ≤ cap) := by
  intro init
  induction init with
  | nil => intro cap xs _; exact ⟨rfl, by simp [appendA, pushAllA]⟩
  | cons e es ih =>
    intro cap xs h
    simp only [List.length_cons] at h
    have ih := ih (if cap ≤ xs.length then grow cap else cap) (xs ++ [e]) (by simp; omega)
    simp only [appendA, Bool.false_eq_true, if_false, List.length_append, List.length_cons, List.length_nil] at ih
    simp only [appendA, Bool.false_eq_true, if_false, pushAllA, howOften_bind, pushBackA_run, if_pos (show xs.length + 1 ≤ mx by omega), Option.elim_some, pushBackA_often]
    refine ⟨by rw [ih.1, List.length_cons]; omega, ?_⟩
    by_cases hc : cap ≤ xs.length
    · rw [if_pos hc]
      simp
      omega
    · rw [if_neg hc, if_neg hc] at *
      rw [Nat.zero_add, ih.2]
      simp only [reduceCtorEq, false_or, List.length_cons]
      constructor
      · rintro (rfl | h')
        · simp only [List.length_nil]; omega
        · omega
      · intro h'; right; omega

/-! ### Examples -/

example : natCfg.lazyInsert [(1, 10), (5, 50)] 3 30 = some ([(1, 10), (3, 30), (5, 50)], 1, true) := by decide +kernel
example : howOften isAlloc (answers natCfg natLin) (lazyInsertA natCfg 2 [(1, 10), (5, 50)] 3 30) = 1 := by with_unfolding_all rfl
example : howOften isAlloc (answers natCfg natLin) (lazyInsertA natCfg 3 [(1, 10), (5, 50)] 3 30) = 0 := by with_unfolding_all rfl
example : howOften isAlloc (answers natCfg natLin) (lazyInsertA natCfg 2 [(1, 10), (5, 50)] 5 30) = 0 := by with_unfolding_all rfl
example : natCfg.lazyInsertMulti [(1, 10), (5, 50)] 5 30 = some ([(1, 10), (5, 50), (5, 30)], 2) := by decide +kernel
example : natLin.lazyInsert [(1, 10), (5, 50)] 3 30 = some ([(1, 10), (5, 50), (3, 30)], 2, true) := by decide +kernel
example : howOften isAlloc (answers natCfg natLin) (linLazyInsertA natLin 2 [(1, 10), (5, 50)] 3 30) = 1 := by with_unfolding_all rfl
example : howOften isNew (answers natCfg natLin) (appendA false (2 * ·) 2 100 [(1, 10), (5, 50)] [(3, 30), (3, 30)]) = 2 := by with_unfolding_all rfl

end Verif.Maps
