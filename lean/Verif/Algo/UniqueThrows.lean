import Verif.Algo.ThrowsProps
import Verif.Algo.UniqueProps

/-!
# unique, merging sets and erase_if when the function object throws (C80)

The algorithms of `unique.cpp` and `erase_if`, with arbitrary function objects as in `Calls.lean`. The memory at a call is the one that an
exception would leave behind. Moving and assigning elements does not throw.
-/

namespace Verif.Algo

open Prog Mem

variable {α S S' Q Q' R R' τ : Type}

/-! ## What an exception leaves behind -/

/-- What the memory was at the calls, with a function that always gives the same answers. -/
def Ask.snaps (f : Q → Bool) : Ask S Q R → List S
  | .done _ => []
  | .ask s q k => s :: (k (f q)).snaps f

/-- An exception leaves behind what the memory was at one of the calls. -/
theorem Ask.exec_threw {f : Q → Bool} {g : τ → Q → Option (Bool × τ)} (hg : Honest f g) : ∀ {a : Ask S Q R} {t : τ} {s : S} {c : List (Q × Bool)},
    a.exec g t = (.threw s, c) → s ∈ a.snaps f
  | .done r, t, s, c, h => by simp [Ask.exec] at h
  | .ask s' q k, t, s, c, h => by
    unfold Ask.exec at h
    rw [Ask.snaps, List.mem_cons]
    cases e : g t q with
    | none =>
      rw [e] at h
      simp only [Prod.mk.injEq, Ask.Ending.threw.injEq] at h
      exact .inl h.1.symm
    | some x =>
      obtain ⟨b, t'⟩ := x
      rw [e] at h
      simp only [Prod.mk.injEq] at h
      have hb := hg _ _ _ _ e
      subst hb
      exact .inr (Ask.exec_threw hg (a := k (f q)) (t := t') (c := (Ask.exec g t' (k (f q))).2) (Prod.ext h.1 rfl))

/-- While something is in scope whose destructor does `g` to the memory when an exception leaves the scope. -/
def Ask.unwinding (g : S → S') : Ask S Q R → Ask S' Q R
  | .done r => .done r
  | .ask s q k => .ask (g s) q fun b => (k b).unwinding g

namespace Prog

/-- What the memory was at the calls. -/
def snaps (f : Q → Bool) (t : Prog S Q R) : List S := Ask.snaps f t

@[simp] theorem snaps_pure (f : Q → Bool) (r : R) : (pure r : Prog S Q R).snaps f = [] := rfl

@[simp] theorem snaps_lift (f : Q → Bool) (x : Option R) : (lift x : Prog S Q R).snaps f = [] := rfl

@[simp] theorem snaps_call (f : Q → Bool) (s : S) (q : Q) : (call s q).snaps f = [s] := rfl

theorem snaps_bind' (f : Q → Bool) (g : R → Prog S Q R') : ∀ (t : Ask S Q (Option R)),
    Ask.snaps f (Prog.bind t g) = Ask.snaps f t ++ match Ask.run f t with | none => [] | some x => (g x).snaps f
  | .done none => rfl
  | .done (some x) => rfl
  | .ask s q k => by
    show s :: Ask.snaps f (Prog.bind (k (f q)) g) = _
    rw [snaps_bind' f g (k (f q))]
    rfl

theorem snaps_bind (f : Q → Bool) (g : R → Prog S Q R') (t : Prog S Q R) :
    (t >>= g).snaps f = t.snaps f ++ match t.run f with | none => [] | some x => (g x).snaps f := snaps_bind' f g t

theorem mem_snaps_bind {f : Q → Bool} {g : R → Prog S Q R'} {t : Prog S Q R} {s : S} :
    s ∈ (t >>= g).snaps f ↔ s ∈ t.snaps f ∨ ∃ x, t.run f = some x ∧ s ∈ (g x).snaps f := by
  rw [snaps_bind, List.mem_append]
  cases t.run f <;> simp

/-- While something is in scope; see `Ask.unwinding`. -/
def unwinding (g : S → S') (t : Prog S Q R) : Prog S' Q R := Ask.unwinding g t

theorem run_unwinding' (f : Q → Bool) (g : S → S') : ∀ (t : Ask S Q (Option R)), Ask.run f (Ask.unwinding g t) = Ask.run f t
  | .done _ => rfl
  | .ask _ q k => run_unwinding' f g (k (f q))

@[simp] theorem run_unwinding (f : Q → Bool) (g : S → S') (t : Prog S Q R) : (t.unwinding g).run f = t.run f := run_unwinding' f g t

theorem Fine.unwinding {strict : Bool} {P : S → Prop} {P' : S' → Prop} {post : Nat → R → Prop} {g : S → S'} (hP : ∀ s, P s → P' (g s)) :
    ∀ {a : Ask S Q (Option R)} {n : Nat}, Fine strict P post n a → Fine strict P' post n (Ask.unwinding g a)
  | .done none, _, H => H
  | .done (some _), _, H => H
  | .ask _ _ _, _, H => ⟨hP _ H.1, fun b => Fine.unwinding hP (H.2 b)⟩

end Prog

/-! ## The model -/

/-- A comparison called while the objects of `m` are in memory. -/
abbrev Cmp (α Q : Type) := Mem (Obj α) → α → α → Prog (Mem (Obj α)) Q Bool

/-- `unique_common` (`unique.cpp` 42-52) with `k` elements of the input left, from `it` on. -/
def uniqueCommonA (mk : MoveKind) (eq : Cmp α Q) : Nat → Mem (Obj α) → Nat → Nat → Prog (Mem (Obj α)) Q (Mem (Obj α) × Nat)
  | 0, m, _, out => pure (m, out + 1)
  | k + 1, m, it, out => do
    let o ← .lift (vals m out)
    let x ← .lift (vals m it)
    let b ← eq m o x
    if b then uniqueCommonA mk eq k m (it + 1) out
    else do
      let m ← .lift (assignFrom mk m (out + 1) it)
      uniqueCommonA mk eq k m (it + 1) (out + 1)

/-- `unique_copy` (`unique.cpp` 54-65). -/
def uniqueCopyA (mk : MoveKind) (eq : Cmp α Q) (m : Mem (Obj α)) (first last out : Nat) : Prog (Mem (Obj α)) Q (Mem (Obj α) × Nat) :=
  if first = last then pure (m, out)
  else do
    let m ← .lift (assignFrom mk m out first)
    uniqueCommonA mk eq (last - first - 1) m (first + 1) out

/-- The loop of `find_first_equal` (`unique.cpp` 75-80), with `k` elements left. -/
def findFirstEqualLoopA (eq : α → α → Prog S Q Bool) (m : Mem α) : Nat → Nat → Nat → Prog S Q Nat
  | 0, _, first => pure first
  | k + 1, previous, first => do
    let x ← .lift (m previous)
    let y ← .lift (m first)
    let b ← eq x y
    if b then pure first else findFirstEqualLoopA eq m k first (first + 1)

/-- `find_first_equal` (`unique.cpp` 68-82). -/
def findFirstEqualA (eq : α → α → Prog S Q Bool) (m : Mem α) (first last : Nat) : Prog S Q Nat :=
  if first = last then pure first else findFirstEqualLoopA eq m (last - first - 1) first (first + 1)

/-- `unique` (`unique.cpp` 85-101). -/
def uniqueA (mk : MoveKind) (eq : Cmp α Q) (m : Mem (Obj α)) (first last : Nat) : Prog (Mem (Obj α)) Q (Mem (Obj α) × Nat) := do
  let e ← findFirstEqualA (eq m) (vals m) first last
  if e = last then pure (m, e)
  else do
    let v ← .lift (vals m e)
    let other ← findIfA (vals m) (notFn (eq m v)) (e + 1) last
    if other = last then pure (m, e)
    else do
      let m ← .lift (assignFrom mk m e other)
      uniqueCommonA mk eq (last - (other + 1)) m (other + 1) e

/-- `std::not_fn(less)`. -/
def Cmp.negate (lt : Cmp α Q) : Cmp α Q := fun m a b => notFn (lt m a) b

/-- `unique_copy_less` (`unique.cpp` 103-106). -/
def uniqueCopyLessA (mk : MoveKind) (lt : Cmp α Q) := uniqueCopyA mk lt.negate

/-- `unique_less` (`unique.cpp` 107-110). -/
def uniqueLessA (mk : MoveKind) (lt : Cmp α Q) := uniqueA mk lt.negate

/-- `next_greater` (`unique.cpp` 113-116). -/
def nextGreaterA (lt : Cmp α Q) (m : Mem (Obj α)) (first last : Nat) (x : α) : Prog (Mem (Obj α)) Q Nat := findIfA (vals m) (lt m x) first last

/-- `unique_merge_copy` (`unique.cpp` 119-135). -/
def uniqueMergeCopyA (mk : MoveKind) (lt : Cmp α Q) : Nat → Mem (Obj α) → Nat → Nat → Nat → Nat → Nat → Prog (Mem (Obj α)) Q (Mem (Obj α) × Nat)
  | 0, _, _, _, _, _, _ => .lift none
  | f + 1, m, first1, last1, first2, last2, out =>
    if first1 ≠ last1 ∧ first2 ≠ last2 then do
      let a ← .lift (vals m first1)
      let b ← .lift (vals m first2)
      let less ← lt m b a
      let m ← .lift (assignFrom mk m out (if less then first2 else first1))
      let o ← .lift (vals m out)
      let i ← nextGreaterA lt m (if less then first1 else first1 + 1) last1 o
      let j ← nextGreaterA lt m (if less then first2 + 1 else first2) last2 o
      uniqueMergeCopyA mk lt f m i last1 j last2 (out + 1)
    else if first1 ≠ last1 then uniqueCopyLessA mk lt m first1 last1 out
    else uniqueCopyLessA mk lt m first2 last2 out

/-- The loop of `find_first_to_move` (`unique.cpp` 170-178), with `k` elements before `middle`; returns `before`. -/
def firstToMoveA (lt : Cmp α Q) (m : Mem (Obj α)) (middle : Nat) : Nat → Nat → Prog (Mem (Obj α)) Q Nat
  | 0, before => pure before
  | k + 1, before => do
    let mid ← .lift (vals m middle)
    let v ← .lift (vals m (before + 1))
    let b ← lt m mid v
    if b then pure before else firstToMoveA lt m middle k (before + 1)

/-- `less_to_equal` (`unique.cpp` 142-144). -/
def lessToEqual (lt : α → α → Prog S Q Bool) (l r : α) : Prog S Q Bool := do
  let a ← lt l r
  if a then pure false
  else do
    let b ← lt r l
    pure !b

/-- The assertions of `unique_inplace_merge` (`unique.cpp` 140-145). -/
def inplaceAssertsA (lt : Cmp α Q) (m : Mem (Obj α)) (first middle last : Nat) : Prog (Mem (Obj α)) Q Unit := do
  let b1 ← isSortedA (vals m) (lt m) first (middle - first)
  let b2 ← isSortedA (vals m) (lt m) middle (last - middle)
  let e ← findFirstEqualA (lessToEqual (lt m)) (vals m) first middle
  if b1 ∧ b2 ∧ e = middle then pure () else .lift none

/-- The construction of `temp`, which allocates (`alloc` is that call), and the work with it (`unique.cpp` 154-160, 188-199). `find` finds
`new_middle`. An exception destroys `temp`. -/
def mergeThroughTempA (mk : MoveKind) (lt : Cmp α Q) (alloc : Q) (tmp : Nat) (m : Mem (Obj α)) (target middle last : Nat)
    (find : Mem (Obj α) → Prog (Mem (Obj α)) Q Nat) : Prog (Mem (Obj α)) Q (Mem (Obj α) × Nat) := do
  let n := middle - target
  let _ ← call m alloc
  let m ← .lift (moveConstruct mk m target tmp n)
  let r ← Prog.unwinding (fun s => destroyTemp s tmp n) (do
    let newMiddle ← find m
    uniqueMergeCopyA mk lt (last - target + 1) m tmp (tmp + n) newMiddle last target)
  pure (destroyTemp r.1 tmp n, r.2)

/-- `unique_inplace_merge` (`unique.cpp` 138-200). The elements of `temp` live at `tmp`. -/
def uniqueInplaceMergeA (mk : MoveKind) (lt : Cmp α Q) (alloc : Q) (tmp : Nat) (m : Mem (Obj α)) (first middle last : Nat) :
    Prog (Mem (Obj α)) Q (Mem (Obj α) × Nat) := do
  inplaceAssertsA lt m first middle last
  if first = middle ∨ middle = last then uniqueLessA mk lt m first last
  else do
    let a ← .lift (vals m first)
    let mid ← .lift (vals m middle)
    let b ← lt m mid a
    if b then mergeThroughTempA mk lt alloc tmp m first middle last fun _ => pure middle
    else do
      let before ← firstToMoveA lt m middle (middle - first - 1) first
      if before + 1 = middle then uniqueLessA mk lt m before last
      else do
        let v ← .lift (vals m before)
        mergeThroughTempA mk lt alloc tmp m (before + 1) middle last fun m => nextGreaterA lt m middle last v

/-- The loop of `erase_if` with `k` elements left (`erase.cpp` 105-112). Returns `new_last`. -/
def eraseIfLoopA (mk : MoveKind) : Nat → Mem (Obj α) → Nat → Nat → Prog (Mem (Obj α)) α (Mem (Obj α) × Nat)
  | 0, m, newLast, _ => pure (m, newLast)
  | k + 1, m, newLast, it => do
    let v ← .lift (vals m it)
    let b ← call m v
    if b then eraseIfLoopA mk k m newLast (it + 1)
    else do
      let m ← .lift (assignFrom mk m newLast it)
      eraseIfLoopA mk k m (newLast + 1) (it + 1)

/-- `erase_if` of containers whose elements are in an array, up to `erase_to_end` (`erase.cpp` 99-112). Returns `new_last`. -/
def eraseIfA (mk : MoveKind) (m : Mem (Obj α)) (first last : Nat) : Prog (Mem (Obj α)) α (Mem (Obj α) × Nat) := do
  let newLast ← findIfA (vals m) (fun v => call m v) first last
  if newLast = last then pure (m, newLast)
  else eraseIfLoopA mk (last - (newLast + 1)) m newLast (newLast + 1)

/-! ## With a function, this is the model of C44 -/

section Run

variable {f : Q → Bool}

theorem uniqueCommonA_run {mk : MoveKind} {eqA : Cmp α Q} {eq : α → α → Bool} (he : ∀ m a b, (eqA m a b).run f = some (eq a b)) : ∀ k m it out,
    (uniqueCommonA mk eqA k m it out).run f = uniqueCommon mk eq k m it out
  | 0, m, it, out => rfl
  | k + 1, m, it, out => by simp [uniqueCommonA, uniqueCommon, he, run_ite, uniqueCommonA_run he k]

theorem uniqueCopyA_run {mk : MoveKind} {eqA : Cmp α Q} {eq : α → α → Bool} (he : ∀ m a b, (eqA m a b).run f = some (eq a b)) (m : Mem (Obj α))
    (first last out : Nat) : (uniqueCopyA mk eqA m first last out).run f = uniqueCopy mk eq m first last out := by
  simp [uniqueCopyA, uniqueCopy, run_ite, uniqueCommonA_run he]

theorem findFirstEqualLoopA_run {eqA : α → α → Prog S Q Bool} {eq : α → α → Bool} (he : ∀ a b, (eqA a b).run f = some (eq a b)) (m : Mem α) : ∀ k p first,
    (findFirstEqualLoopA eqA m k p first).run f = findFirstEqualLoop eq m k p first
  | 0, _, _ => rfl
  | k + 1, _, _ => by simp [findFirstEqualLoopA, findFirstEqualLoop, he, run_ite, findFirstEqualLoopA_run he m k]

theorem findFirstEqualA_run {eqA : α → α → Prog S Q Bool} {eq : α → α → Bool} (he : ∀ a b, (eqA a b).run f = some (eq a b)) (m : Mem α) (first last : Nat) :
    (findFirstEqualA eqA m first last).run f = findFirstEqual eq m first last := by
  simp [findFirstEqualA, findFirstEqual, run_ite, findFirstEqualLoopA_run he]

theorem uniqueA_run {mk : MoveKind} {eqA : Cmp α Q} {eq : α → α → Bool} (he : ∀ m a b, (eqA m a b).run f = some (eq a b)) (m : Mem (Obj α)) (first last : Nat) :
    (uniqueA mk eqA m first last).run f = unique mk eq m first last := by
  simp [uniqueA, unique, run_ite, findFirstEqualA_run (he m), uniqueCommonA_run he, findIfA_run (notFn_run (he m _))]

theorem negate_run {ltA : Cmp α Q} {lt : α → α → Bool} (hl : ∀ m a b, (ltA m a b).run f = some (lt a b)) (m : Mem (Obj α)) (a b : α) :
    (ltA.negate m a b).run f = some !(lt a b) := notFn_run (hl m a) b

theorem uniqueLessA_run {mk : MoveKind} {ltA : Cmp α Q} {lt : α → α → Bool} (hl : ∀ m a b, (ltA m a b).run f = some (lt a b)) (m : Mem (Obj α)) (first last : Nat) :
    (uniqueLessA mk ltA m first last).run f = uniqueLess mk lt m first last := uniqueA_run (negate_run hl) m first last

theorem uniqueCopyLessA_run {mk : MoveKind} {ltA : Cmp α Q} {lt : α → α → Bool} (hl : ∀ m a b, (ltA m a b).run f = some (lt a b)) (m : Mem (Obj α))
    (first last out : Nat) : (uniqueCopyLessA mk ltA m first last out).run f = uniqueCopyLess mk lt m first last out :=
  uniqueCopyA_run (negate_run hl) m first last out

theorem nextGreaterA_run {ltA : Cmp α Q} {lt : α → α → Bool} (hl : ∀ m a b, (ltA m a b).run f = some (lt a b)) (m : Mem (Obj α)) (first last : Nat) (x : α) :
    (nextGreaterA ltA m first last x).run f = nextGreater lt (vals m) first last x := findIfA_run (hl m x) first last

theorem uniqueMergeCopyA_run {mk : MoveKind} {ltA : Cmp α Q} {lt : α → α → Bool} (hl : ∀ m a b, (ltA m a b).run f = some (lt a b)) : ∀ k m a b c d out,
    (uniqueMergeCopyA mk ltA k m a b c d out).run f = uniqueMergeCopy mk lt k m a b c d out
  | 0, _, _, _, _, _, _ => rfl
  | k + 1, _, _, _, _, _, _ => by
    simp [uniqueMergeCopyA, uniqueMergeCopy, hl, run_ite, nextGreaterA_run hl, uniqueCopyLessA_run hl, uniqueMergeCopyA_run hl k]

theorem firstToMoveA_run {ltA : Cmp α Q} {lt : α → α → Bool} (hl : ∀ m a b, (ltA m a b).run f = some (lt a b)) (m : Mem (Obj α)) (middle : Nat) : ∀ k before,
    (firstToMoveA ltA m middle k before).run f = firstToMove lt (vals m) middle k before
  | 0, _ => rfl
  | k + 1, _ => by simp [firstToMoveA, firstToMove, hl, run_ite, firstToMoveA_run hl m middle k]

theorem lessToEqual_run {ltA : α → α → Prog S Q Bool} {lt : α → α → Bool} (hl : ∀ a b, (ltA a b).run f = some (lt a b)) (a b : α) :
    (lessToEqual ltA a b).run f = some (!lt a b && !lt b a) := by
  simp only [lessToEqual, Prog.run_bind, hl, Option.bind_some, run_ite, Prog.run_pure]
  cases lt a b <;> rfl

theorem inplaceAssertsA_run {ltA : Cmp α Q} {lt : α → α → Bool} (hl : ∀ m a b, (ltA m a b).run f = some (lt a b)) (m : Mem (Obj α)) (first middle last : Nat) :
    (inplaceAssertsA ltA m first middle last).run f = inplaceAsserts lt (vals m) first middle last := by
  simp [inplaceAssertsA, inplaceAsserts, run_ite, isSortedA_run (hl m), findFirstEqualA_run (lessToEqual_run (hl m))]

theorem findIfLoop_congr {m m' : Mem α} {p : α → Bool} : ∀ {n first : Nat}, (∀ a, first ≤ a → a < first + n → m a = m' a) →
    findIfLoop m p n first = findIfLoop m' p n first
  | 0, _, _ => rfl
  | n + 1, first, h => by
    rw [findIfLoop, findIfLoop, h first (by omega) (by omega), findIfLoop_congr fun a h1 h2 => h a (by omega) (by omega)]

theorem findIf_congr {m m' : Mem α} {p : α → Bool} {first last : Nat} (h : ∀ a, first ≤ a → a < last → m a = m' a) :
    findIf m p first last = findIf m' p first last := by
  rw [findIf, findIf]
  split
  · exact findIfLoop_congr fun a h1 h2 => h a h1 (by omega)
  · rfl

theorem moveConstruct_same {mk : MoveKind} : ∀ {n : Nat} {m m' : Mem (Obj α)} {src dst : Nat}, moveConstruct mk m src dst n = some m' →
    SameOff m m' fun a => (src ≤ a ∧ a < src + n) ∨ (dst ≤ a ∧ a < dst + n)
  | 0, m, m', src, dst, h => by
    simp only [moveConstruct, Option.some.injEq] at h
    subst h; exact fun _ _ => rfl
  | n + 1, m, m', src, dst, h => by
    rw [moveConstruct] at h
    split at h
    · rename_i v hs hd
      have := moveConstruct_same h
      refine .trans (fun a ha => ?_) (this.mono fun a ha => by omega)
      cases mk
      · exact upd_other _ _ (by omega)
      · simp only [upd_other _ _ (show a ≠ src by omega), upd_other _ _ (show a ≠ dst by omega)]
      · simp only [upd_other _ _ (show a ≠ src by omega), upd_other _ _ (show a ≠ dst by omega)]
    · cases h

theorem mergeThroughTempA_run {mk : MoveKind} {ltA : Cmp α Q} {lt : α → α → Bool} (hl : ∀ m a b, (ltA m a b).run f = some (lt a b)) {alloc : Q} {tmp : Nat}
    {m : Mem (Obj α)} {target middle last : Nat} {find : Mem (Obj α) → Prog (Mem (Obj α)) Q Nat} {r : Option Nat}
    (hf : ∀ m', moveConstruct mk m target tmp (middle - target) = some m' → (find m').run f = r) :
    (mergeThroughTempA mk ltA alloc tmp m target middle last find).run f =
      r.bind fun newMiddle => mergeThroughTemp mk lt tmp m target middle newMiddle last := by
  simp only [mergeThroughTempA, mergeThroughTemp, Prog.run_bind, Prog.run_call, Prog.run_lift, Option.bind_some, Prog.run_unwinding, Prog.run_pure,
    Option.bind_eq_bind, uniqueMergeCopyA_run hl]
  cases hm : moveConstruct mk m target tmp (middle - target) with
  | none => cases r <;> rfl
  | some m' =>
    rw [Option.bind_some, hf m' hm]
    cases r with
    | none => rfl
    | some nm => rfl

theorem uniqueInplaceMergeA_run {mk : MoveKind} {ltA : Cmp α Q} {lt : α → α → Bool} (hl : ∀ m a b, (ltA m a b).run f = some (lt a b)) {alloc : Q} {tmp : Nat}
    {m : Mem (Obj α)} {first middle last : Nat} (htmp : last ≤ tmp) :
    (uniqueInplaceMergeA mk ltA alloc tmp m first middle last).run f = uniqueInplaceMerge mk lt tmp m first middle last := by
  simp only [uniqueInplaceMergeA, uniqueInplaceMerge, Prog.run_bind, Prog.run_lift, run_ite, hl, inplaceAssertsA_run hl, uniqueLessA_run hl, firstToMoveA_run hl,
    Option.bind_eq_bind, Option.bind_some]
  rw [mergeThroughTempA_run (r := some middle) hl fun m' _ => rfl]
  simp only [Option.bind_some]
  congr 1; funext _
  congr 1
  congr 1; funext a
  congr 1; funext mid
  congr 1
  congr 1; funext before
  congr 1
  congr 1; funext v
  refine mergeThroughTempA_run hl fun m' hm => ?_
  rw [nextGreaterA_run hl]
  refine findIf_congr fun a h1 h2 => ?_
  exact vals_same (moveConstruct_same hm) a (by omega)

end Run

end Verif.Algo
