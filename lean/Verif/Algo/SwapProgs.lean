import Verif.Algo.SwapThrows
import Verif.Algo.ThrowsProps

/-!
# Partitions whose swaps and function objects throw (property C92)

An algorithm that reads elements, calls a function object for them and exchanges pairs of them is a program `SProg`. The function object may have
state, answer as it likes and throw (as in `Calls.lean`), and the exchange of a pair may throw, leaving two objects with some values.
-/

namespace Verif.Algo.Swapping

open Verif Mem Prog

variable {α Q R R' τ : Type}

/-- What an algorithm does from some moment on. -/
inductive SProg (α Q R : Type) where
  | ret (r : R)
  | stuck
  | get (i : Nat) (k : α → SProg α Q R)
  | ask (q : Q) (k : Bool → SProg α Q R)
  | swap (i j : Nat) (k : SProg α Q R)

namespace SProg

/-- Go on with what the first part returned. -/
def bind : SProg α Q R → (R → SProg α Q R') → SProg α Q R'
  | ret r, g => g r
  | stuck, _ => stuck
  | get i k, g => get i fun v => (k v).bind g
  | ask q k, g => ask q fun b => (k b).bind g
  | swap i j k, g => swap i j (k.bind g)

/-- How a run ends: with a result, with an exception of the function object, with an exception of a swap, or in undefined behaviour. -/
inductive Ended (α R : Type) where
  | returned (r : R) (m : Mem α)
  | asked (m : Mem α)
  | swapped (m : Mem α)
  | ub

/-- A run. `t` is the state of the function object, `j` the number of swaps so far. -/
def exec (f : τ → Q → Option (Bool × τ)) (sw : Swaps α) : SProg α Q R → τ → Nat → Mem α → Ended α R
  | ret r, _, _, m => .returned r m
  | stuck, _, _, _ => .ub
  | get i k, t, j, m =>
    match m i with
    | none => .ub
    | some v => (k v).exec f sw t j m
  | ask q k, t, j, m =>
    match f t q with
    | none => .asked m
    | some (b, t') => (k b).exec f sw t' j m
  | swap a b k, t, j, m =>
    match swapX (sw j) m a b with
    | .ub => .ub
    | .exn m' => .swapped m'
    | .ok m' => k.exec f sw t (j + 1) m'

/-- The same algorithm if no swap throws, as a tree of calls of the function object. -/
def toA : SProg α Q R → Mem α → Prog (Mem α) Q (Mem α × R)
  | ret r, m => pure (m, r)
  | stuck, _ => .lift none
  | get i k, m =>
    match m i with
    | none => .lift none
    | some v => (k v).toA m
  | ask q k, m => Ask.ask m q fun b => (k b).toA m
  | swap i j k, m =>
    match m.swapAt i j with
    | none => .lift none
    | some m' => k.toA m'

end SProg

/-! ## The algorithms -/

/-- The loop of `find_if_not` with `n` elements to go (`algorithms/find.cpp` 28-33, 65-68); `q` is how the function object is called for an element. -/
def findIfNotLoopS (q : α → Q) : Nat → Nat → SProg α Q Nat
  | 0, first => .ret first
  | n + 1, first => .get first fun v => .ask (q v) fun b => if !b then .ret first else findIfNotLoopS q n (first + 1)

/-- `find_if_not` (`algorithms/find.cpp` 65-68). -/
def findIfNotS (q : α → Q) (first last : Nat) : SProg α Q Nat := if first ≤ last then findIfNotLoopS q (last - first) first else .stuck

/-- The loop of `find_last_if` (`algorithms/find.cpp` 47-53). -/
def findLastIfLoopS (q : α → Q) (first last : Nat) : Nat → SProg α Q Nat
  | 0 => .ret last
  | n + 1 => .get (first + n) fun v => .ask (q v) fun b => if b then .ret (first + n) else findLastIfLoopS q first last n

/-- `find_last_if` (`algorithms/find.cpp` 45-54). -/
def findLastIfS (q : α → Q) (first last : Nat) : SProg α Q Nat := if first ≤ last then findLastIfLoopS q first last (last - first) else .stuck

/-- `advance_last` (`algorithms/partition.cpp` 71-78). -/
def advanceLastS (first : Nat) : Nat → SProg α α Nat
  | 0 => .ret first
  | n + 1 => .get (first + n) fun v => .ask v fun b => if b then .ret (first + n) else advanceLastS first n

/-- The loop over ranges that can be walked from both ends (`algorithms/partition.cpp` 81-88). -/
def partitionSwapLoopS : Nat → Nat → Nat → SProg α α Nat
  | 0, _, _ => .stuck
  | f + 1, first, last =>
    if first = last then .ret first
    else .swap first last <| (findIfNotS id first last).bind fun first =>
      if first = last then .ret first
      else (advanceLastS first (last - first)).bind fun last => partitionSwapLoopS f first last

/-- The loop over ranges that can only be walked forwards (`algorithms/partition.cpp` 93-98). -/
def partitionForwardS : Nat → Nat → Nat → SProg α α Nat
  | 0, first, _ => .ret first
  | n + 1, first, it =>
    .get it fun v => .ask v fun b =>
      if b then .swap it first (partitionForwardS n (first + 1) (it + 1)) else partitionForwardS n first (it + 1)

/-- `partition` (`algorithms/partition.cpp` 62-101). -/
def partitionS (bidir : Bool) (first last : Nat) : SProg α α Nat :=
  (findIfNotS id first last).bind fun first =>
    if bidir then (advanceLastS first (last - first)).bind fun last => partitionSwapLoopS (last - first + 1) first last
    else if first = last then .ret first
    else partitionForwardS (last - first - 1) first (first + 1)

/-- The loop of `iterator_partition` (`algorithms/partition.cpp` 117-132). -/
def iteratorPartitionLoopS : Nat → Nat → Nat → Nat → SProg α (α × α) Nat
  | 0, _, _, _ => .stuck
  | f + 1, first, middle, last =>
    .get middle fun v => (findIfNotS (fun x => (x, v)) first middle).bind fun first =>
      if first = last then .ret first
      else (findLastIfS (fun x => (x, v)) (first + 1) last).bind fun l =>
        if l = last then .ret first
        else .swap first l (iteratorPartitionLoopS f (first + 1) (if first = middle then l else middle) l)

/-- `iterator_partition` (`algorithms/partition.cpp` 112-135). -/
def iteratorPartitionS (first middle last : Nat) : SProg α (α × α) Nat :=
  if first ≠ last ∧ middle = last then .stuck
  else if first = last then (if middle = first then .ret first else .stuck)
  else iteratorPartitionLoopS (last - first + 1) first middle last

/-! ## Without throwing swaps, these are the algorithms of `Throws.lean` -/

namespace SProg

theorem toA_bind (g : R → SProg α Q R') : ∀ (p : SProg α Q R) (m : Mem α), (p.bind g).toA m = Prog.bind (p.toA m) fun r => (g r.2).toA r.1
  | ret _, _ => rfl
  | stuck, _ => rfl
  | get i k, m => by
    simp only [SProg.bind, toA]
    cases m i with
    | none => rfl
    | some v => exact toA_bind g (k v) m
  | ask q k, m => by
    simp only [SProg.bind, toA, Prog.bind, Ask.bind]
    congr 1
    funext b
    exact toA_bind g (k b) m
  | swap i j k, m => by
    simp only [SProg.bind, toA]
    cases m.swapAt i j with
    | none => rfl
    | some m' => exact toA_bind g k m'

end SProg

/-- Keeping the memory. -/
def with_ (m : Mem α) (a : Prog (Mem α) Q R) : Prog (Mem α) Q (Mem α × R) := Prog.bind a fun r => pure (m, r)

theorem bind_with' (m : Mem α) (g : Mem α × R → Prog (Mem α) Q R') : ∀ a : Ask (Mem α) Q (Option R), Prog.bind (with_ m a) g = Prog.bind a fun r => g (m, r)
  | .done none => rfl
  | .done (some _) => rfl
  | .ask s q k => by
    simp only [with_, Prog.bind, Ask.bind]
    congr 1
    funext b
    exact bind_with' m g (k b)

theorem bind_with (m : Mem α) (g : Mem α × R → Prog (Mem α) Q R') (a : Prog (Mem α) Q R) : Prog.bind (with_ m a) g = Prog.bind a fun r => g (m, r) :=
  bind_with' m g a

theorem findIfNotLoopS_toA (q : α → Q) (m : Mem α) : ∀ n first, (findIfNotLoopS q n first).toA m = with_ m (findIfLoopA m (notFn fun x => call m (q x)) n first)
  | 0, _ => rfl
  | n + 1, first => by
    simp only [findIfNotLoopS, SProg.toA, findIfLoopA, with_]
    cases hm : m first with
    | none => rfl
    | some v =>
      show Ask.ask m (q v) _ = Ask.ask m (q v) _
      congr 1
      funext b
      cases b with
      | false => rfl
      | true => exact findIfNotLoopS_toA q m n (first + 1)

theorem findIfNotS_toA (q : α → Q) (m : Mem α) (first last : Nat) :
    (findIfNotS q first last).toA m = with_ m (findIfNotA m (fun x => call m (q x)) first last) := by
  unfold findIfNotS findIfNotA findIfA
  split
  · exact findIfNotLoopS_toA q m _ _
  · rfl

theorem findLastIfLoopS_toA (q : α → Q) (m : Mem α) (first last : Nat) : ∀ n,
    (findLastIfLoopS q first last n).toA m = with_ m (findLastIfLoopA m (fun x => call m (q x)) first last n)
  | 0 => rfl
  | n + 1 => by
    simp only [findLastIfLoopS, SProg.toA, findLastIfLoopA, with_]
    cases hm : m (first + n) with
    | none => rfl
    | some v =>
      show Ask.ask m (q v) _ = Ask.ask m (q v) _
      congr 1
      funext b
      cases b with
      | true => rfl
      | false => exact findLastIfLoopS_toA q m first last n

theorem findLastIfS_toA (q : α → Q) (m : Mem α) (first last : Nat) :
    (findLastIfS q first last).toA m = with_ m (findLastIfA m (fun x => call m (q x)) first last) := by
  unfold findLastIfS findLastIfA
  split
  · exact findLastIfLoopS_toA q m _ _ _
  · rfl

theorem advanceLastS_toA (m : Mem α) (first : Nat) : ∀ n, (advanceLastS first n).toA m = with_ m (advanceLastA m first n)
  | 0 => rfl
  | n + 1 => by
    simp only [advanceLastS, SProg.toA, advanceLastA, with_]
    cases hm : m (first + n) with
    | none => rfl
    | some v =>
      show Ask.ask m v _ = Ask.ask m v _
      congr 1
      funext b
      cases b with
      | true => rfl
      | false => exact advanceLastS_toA m first n

theorem partitionSwapLoopS_toA : ∀ f (m : Mem α) first last, (partitionSwapLoopS f first last).toA m = partitionLoopA f m first last
  | 0, _, _, _ => rfl
  | f + 1, m, first, last => by
    simp only [partitionSwapLoopS, partitionLoopA]
    split
    · rfl
    · simp only [SProg.toA]
      cases hm : m.swapAt first last with
      | none => rfl
      | some m' =>
        show _ = Prog.bind (findIfNotA m' (ask1 m') first last) _
        dsimp only
        rw [SProg.toA_bind, findIfNotS_toA, bind_with]
        show Prog.bind (findIfNotA m' (ask1 m') first last) _ = _
        congr 1
        funext first'
        dsimp only
        split
        · rfl
        · rw [SProg.toA_bind, advanceLastS_toA, bind_with]
          show Prog.bind _ _ = Prog.bind _ _
          congr 1
          funext last'
          exact partitionSwapLoopS_toA f m' first' last'

theorem partitionForwardS_toA : ∀ n (m : Mem α) first it, (partitionForwardS n first it).toA m = partitionForwardA n m first it
  | 0, _, _, _ => rfl
  | n + 1, m, first, it => by
    simp only [partitionForwardS, partitionForwardA, SProg.toA]
    cases hm : m it with
    | none => rfl
    | some v =>
      show Ask.ask m v _ = Ask.ask m v _
      congr 1
      funext b
      cases b with
      | false => exact partitionForwardS_toA n m first (it + 1)
      | true =>
        show (match m.swapAt it first with | none => lift none | some m' => _) = Prog.bind (lift (m.swapAt it first)) _
        cases hs : m.swapAt it first with
        | none => rfl
        | some m' => exact partitionForwardS_toA n m' (first + 1) (it + 1)

theorem partitionS_toA (bidir : Bool) (m : Mem α) (first last : Nat) : (partitionS bidir first last).toA m = partitionA bidir m first last := by
  simp only [partitionS, partitionA]
  rw [SProg.toA_bind, findIfNotS_toA, bind_with]
  show Prog.bind (findIfNotA m (ask1 m) first last) _ = Prog.bind _ _
  congr 1
  funext first'
  cases bidir with
  | true =>
    simp only [if_true]
    rw [SProg.toA_bind, advanceLastS_toA, bind_with]
    show Prog.bind _ _ = Prog.bind _ _
    congr 1
    funext last'
    exact partitionSwapLoopS_toA _ m first' last'
  | false =>
    simp only [Bool.false_eq_true, if_false]
    split
    · rfl
    · exact partitionForwardS_toA _ m _ _

theorem iteratorPartitionLoopS_toA : ∀ f (m : Mem α) first middle last,
    (iteratorPartitionLoopS f first middle last).toA m = iteratorPartitionLoopA f m first middle last
  | 0, _, _, _, _ => rfl
  | f + 1, m, first, middle, last => by
    simp only [iteratorPartitionLoopS, iteratorPartitionLoopA, SProg.toA]
    cases hm : m middle with
    | none => rfl
    | some v =>
      show _ = Prog.bind (findIfNotA m (fun x => ask2 m x v) first middle) _
      dsimp only
      rw [SProg.toA_bind, findIfNotS_toA, bind_with]
      show Prog.bind (findIfNotA m (fun x => ask2 m x v) first middle) _ = _
      congr 1
      funext first'
      dsimp only
      split
      · rfl
      · show _ = Prog.bind (findLastIfA m (fun x => ask2 m x v) (first' + 1) last) _
        rw [SProg.toA_bind, findLastIfS_toA, bind_with]
        show Prog.bind (findLastIfA m (fun x => ask2 m x v) (first' + 1) last) _ = _
        congr 1
        funext l
        dsimp only
        split
        · rfl
        · simp only [SProg.toA]
          show _ = Prog.bind (lift (m.swapAt first' l)) _
          cases hs : m.swapAt first' l with
          | none => rfl
          | some m' => exact iteratorPartitionLoopS_toA f m' _ _ _

theorem iteratorPartitionS_toA (m : Mem α) (first middle last : Nat) : (iteratorPartitionS first middle last).toA m = iteratorPartitionA m first middle last := by
  unfold iteratorPartitionS iteratorPartitionA
  split
  · rfl
  · split
    · split <;> rfl
    · exact iteratorPartitionLoopS_toA _ m _ _ _

/-! ## What a swap that throws leaves -/

/-- Memory after some exchanges of pairs. -/
inductive SwapReach (m : Mem α) : Mem α → Prop where
  | refl : SwapReach m m
  | swap {s s' : Mem α} {i j : Nat} (h : SwapReach m s) (e : s.swapAt i j = some s') : SwapReach m s'

namespace SProg

/-- A run with throwing swaps is the run without, up to the first swap that throws. -/
theorem exec_toA (f : τ → Q → Option (Bool × τ)) (sw : Swaps α) {m0 : Mem α} : ∀ (p : SProg α Q R) (t : τ) (j : Nat) (m : Mem α), SwapReach m0 m →
    match p.exec f sw t j m with
    | .returned r m' => (Ask.exec f t (p.toA m)).1 = .returned (some (m', r))
    | .asked m' => (Ask.exec f t (p.toA m)).1 = .threw m'
    | .swapped m'' => ∃ k x' y' m' a b, sw k = some (x', y') ∧ SwapReach m0 m' ∧ (m' a).isSome ∧ (m' b).isSome ∧ m'' = upd (upd m' a (some x')) b (some y')
    | .ub => (Ask.exec f t (p.toA m)).1 = .returned none
  | ret r, t, j, m, _ => rfl
  | stuck, t, j, m, _ => rfl
  | get i k, t, j, m, h => by
    simp only [exec, toA]
    cases m i with
    | none => rfl
    | some v => exact exec_toA f sw (k v) t j m h
  | ask q k, t, j, m, h => by
    simp only [exec, toA]
    unfold Ask.exec
    cases f t q with
    | none => rfl
    | some bt =>
      obtain ⟨b, t'⟩ := bt
      exact exec_toA f sw (k b) t' j m h
  | swap a b k, t, j, m, h => by
    simp only [exec, toA, swapX, swapAt]
    cases ha : m a with
    | none => rfl
    | some x =>
      cases hb : m b with
      | none => rfl
      | some y =>
        dsimp only
        cases hs : sw j with
        | none => exact exec_toA f sw k t (j + 1) _ (h.swap (i := a) (j := b) (by simp only [swapAt, ha, hb]))
        | some l =>
          obtain ⟨x', y'⟩ := l
          exact ⟨j, x', y', m, a, b, hs, h, by simp [ha], by simp [hb], rfl⟩

/-- The run with other objects around. -/
def Ended.around (m0 m : Mem α) : Ended α R → Ended α R
  | .returned r m' => .returned r fun a => if (m0 a).isSome then m' a else m a
  | .asked m' => .asked fun a => if (m0 a).isSome then m' a else m a
  | .swapped m' => .swapped fun a => if (m0 a).isSome then m' a else m a
  | .ub => .ub

theorem around_self (m0 m : Mem α) (h : ∀ a v, m0 a = some v → m a = some v) : (fun a => if (m0 a).isSome then m0 a else m a) = m := by
  funext a
  cases e : m0 a with
  | none => simp
  | some v => simp [h a v e]

/-- An algorithm that is fine where only some of the objects exist does the same where there are more, and leaves those alone. -/
theorem exec_local (f : τ → Q → Option (Bool × τ)) (sw : Swaps α) : ∀ (p : SProg α Q R) (t : τ) (j : Nat) (m0 m : Mem α),
    (∀ a v, m0 a = some v → m a = some v) → p.exec f sw t j m0 ≠ .ub → p.exec f sw t j m = (p.exec f sw t j m0).around m0 m
  | ret r, t, j, m0, m, h, _ => by simp only [exec, Ended.around, around_self m0 m h]
  | stuck, t, j, m0, m, h, hn => absurd rfl hn
  | get i k, t, j, m0, m, h, hn => by
    simp only [exec] at hn ⊢
    cases e : m0 i with
    | none => rw [e] at hn; exact absurd rfl hn
    | some v =>
      rw [e] at hn
      rw [h i v e]
      exact exec_local f sw (k v) t j m0 m h hn
  | ask q k, t, j, m0, m, h, hn => by
    simp only [exec] at hn ⊢
    cases e : f t q with
    | none => simp only [Ended.around, around_self m0 m h]
    | some bt =>
      obtain ⟨b, t'⟩ := bt
      rw [e] at hn
      exact exec_local f sw (k b) t' j m0 m h hn
  | swap a b k, t, j, m0, m, h, hn => by
    simp only [exec, swapX] at hn ⊢
    cases ea : m0 a with
    | none => simp [ea] at hn
    | some x =>
      cases eb : m0 b with
      | none => simp [ea, eb] at hn
      | some y =>
        rw [h a x ea, h b y eb]
        rw [ea, eb] at hn
        dsimp only at hn ⊢
        have key : ∀ u v : α, (∀ c w, upd (upd m0 a (some u)) b (some v) c = some w → upd (upd m a (some u)) b (some v) c = some w) := by
          intro u v c w
          by_cases e1 : c = b
          · subst e1; simp only [upd_same]; exact id
          · rw [upd_other _ _ e1, upd_other _ _ e1]
            by_cases e2 : c = a
            · subst e2; simp only [upd_same]; exact id
            · rw [upd_other _ _ e2, upd_other _ _ e2]; exact h c w
        have dom : ∀ (u v : α) c, (upd (upd m0 a (some u)) b (some v) c).isSome = (m0 c).isSome := by
          intro u v c
          by_cases e1 : c = b
          · subst e1; simp [upd_same, eb]
          · rw [upd_other _ _ e1]
            by_cases e2 : c = a
            · subst e2; simp [upd_same, ea]
            · rw [upd_other _ _ e2]
        have off : ∀ (u v : α) c, (m0 c).isSome = false → upd (upd m a (some u)) b (some v) c = m c := by
          intro u v c hc
          rw [upd_other _ _ (by rintro rfl; simp [eb] at hc), upd_other _ _ (by rintro rfl; simp [ea] at hc)]
        cases es : sw j with
        | none =>
          rw [es] at hn
          dsimp only at hn ⊢
          rw [exec_local f sw k t (j + 1) _ _ (key y x) hn]
          cases k.exec f sw t (j + 1) (upd (upd m0 a (some y)) b (some x)) with
          | ub => rfl
          | returned r m' | asked m' | swapped m' =>
            simp only [Ended.around, dom]
            congr 1
            funext c
            cases hc : (m0 c).isSome with
            | true => rfl
            | false => simp only [Bool.false_eq_true, if_false]; exact off y x c hc
        | some l =>
          obtain ⟨x', y'⟩ := l
          simp only [Ended.around]
          congr 1
          funext c
          cases hc : (m0 c).isSome with
          | true =>
            simp only [if_true]
            obtain ⟨w, hw⟩ := Option.isSome_iff_exists.mp ((dom x' y' c).trans hc)
            rw [key x' y' c w hw, hw]
          | false => simp only [Bool.false_eq_true, if_false]; exact off x' y' c hc

end SProg

/-- Only the objects of a range. -/
def rangeOf (first n : Nat) (m : Mem α) : Mem α := fun a => if first ≤ a ∧ a < first + n then m a else none

theorem rangeOf_seg {m : Mem α} {first : Nat} {xs : List α} (h : m.Seg first xs) : (rangeOf first xs.length m).Seg first xs := by
  intro i hi
  simp only [rangeOf]
  rw [if_pos (by omega)]
  exact h i hi

theorem reach_shuffled {m s : Mem α} {first : Nat} {xs : List α} (hx : m.Seg first xs) (ho : ∀ a, ¬ InRange first xs.length a → m a = none) (h : SwapReach m s) :
    ∃ ys, ys.Perm xs ∧ s.Seg first ys ∧ ∀ a, ¬ InRange first xs.length a → s a = none := by
  induction h with
  | refl => exact ⟨xs, .refl _, hx, ho⟩
  | @swap s s' i j _ e ih =>
    obtain ⟨ys, p, hy, ho'⟩ := ih
    have hl : ys.length = xs.length := p.length_eq
    have hin : ∀ c, (s c).isSome → InRange first xs.length c := by
      intro c hc
      by_contra hn
      rw [ho' c hn] at hc
      simp at hc
    have hi : (s i).isSome ∧ (s j).isSome := by
      simp only [Mem.swapAt] at e
      cases h1 : s i with
      | none => simp [h1] at e
      | some u =>
        cases h2 : s j with
        | none => simp [h1, h2] at e
        | some v => simp
    have r1 := hin i hi.1
    have r2 := hin j hi.2
    simp only [InRange] at r1 r2
    obtain ⟨m', e', s1, s2⟩ := swapAt_spec (i := i - first) (j := j - first) hy (by omega) (by omega)
    rw [show first + (i - first) = i by omega, show first + (j - first) = j by omega, e] at e'
    cases e'
    refine ⟨_, swapped_perm.trans p, s1, fun a ha => ?_⟩
    rw [s2 a (by rw [hl]; exact ha)]
    exact ho' a ha

/-- The elements from `first` on after an exception of a swap: they have been rearranged, and two of them are what the swap has left. Nothing
else has changed. -/
def Disturbed (sw : Swaps α) (first : Nat) (xs : List α) (m s : Mem α) : Prop :=
  ∃ (k : Nat) (x' y' : α) (ys : List α) (a b : Nat), sw k = some (x', y') ∧ ys.Perm xs ∧ a < xs.length ∧ b < xs.length ∧
    s.Seg first ((ys.set a x').set b y') ∧ m.SameOff s (InRange first xs.length)

/-- Any program of reads, calls and swaps: if it is fine where only the range exists and no swap throws, then it is fine with throwing swaps and
other objects around. A result and an exception of the function object leave the elements in some order, an exception of a swap leaves all
but two of them. -/
theorem SProg.disturbed (f : τ → Q → Option (Bool × τ)) (sw : Swaps α) (p : SProg α Q R) (t : τ) {first : Nat} {xs : List α} {m : Mem α} (hx : m.Seg first xs)
    (hfine : (Ask.exec f t (p.toA (rangeOf first xs.length m))).1 ≠ .returned none)
    (hret : ∀ r m', (Ask.exec f t (p.toA (rangeOf first xs.length m))).1 = .returned (some (m', r)) → Shuffled first xs.length (rangeOf first xs.length m) m')
    (hthr : ∀ m', (Ask.exec f t (p.toA (rangeOf first xs.length m))).1 = .threw m' → Shuffled first xs.length (rangeOf first xs.length m) m') :
    match p.exec f sw t 0 m with
    | .returned r m' => Shuffled first xs.length m m' ∧
        ∃ m'', (Ask.exec f t (p.toA (rangeOf first xs.length m))).1 = .returned (some (m'', r)) ∧ ∀ a, InRange first xs.length a → m' a = m'' a
    | .asked m' => Shuffled first xs.length m m'
    | .swapped m' => Disturbed sw first xs m m'
    | .ub => False := by
  have hx0 := rangeOf_seg hx
  have hoff : ∀ a, ¬ InRange first xs.length a → rangeOf first xs.length m a = none := fun a ha => by
    simp only [rangeOf]; rw [if_neg ha]
  have hsome : ∀ a, (rangeOf first xs.length m a).isSome = decide (InRange first xs.length a) := by
    intro a
    by_cases ha : InRange first xs.length a
    · have h1 : first ≤ a ∧ a < first + xs.length := ha
      have := hx0 (a - first) (by omega)
      rw [show first + (a - first) = a by omega] at this
      simp [this, ha]
    · simp [hoff a ha, ha]
  have hrel := SProg.exec_toA f sw p t 0 (rangeOf first xs.length m) .refl
  have hne : p.exec f sw t 0 (rangeOf first xs.length m) ≠ .ub := by
    intro e
    rw [e] at hrel
    exact hfine hrel
  have hloc := SProg.exec_local f sw p t 0 (rangeOf first xs.length m) m (fun a v e => by
    simp only [rangeOf] at e
    split at e
    · exact e
    · cases e) hne
  have lift_ : ∀ s, Shuffled first xs.length (rangeOf first xs.length m) s →
      Shuffled first xs.length m (fun a => if (rangeOf first xs.length m a).isSome then s a else m a) := by
    intro s hs
    obtain ⟨ys, py, sy⟩ := hs.perm xs rfl hx0
    refine .of_seg hx rfl py ?_ ?_
    · intro i hi
      have hi' : i < xs.length := py.length_eq ▸ hi
      simp only [hsome]
      rw [if_pos (by simp [InRange]; omega)]
      exact sy i hi
    · intro a ha
      simp only [hsome]
      rw [if_neg (by simpa using ha)]
  cases e : p.exec f sw t 0 (rangeOf first xs.length m) with
  | ub => exact absurd e hne
  | returned r m' =>
    rw [e] at hrel hloc
    rw [hloc]
    refine ⟨lift_ m' (hret r m' hrel), m', hrel, fun a ha => ?_⟩
    simp only [hsome]
    rw [if_pos (by simpa using ha)]
  | asked m' =>
    rw [e] at hrel hloc
    rw [hloc]
    exact lift_ m' (hthr m' hrel)
  | swapped m'' =>
    rw [e] at hrel hloc
    rw [hloc]
    obtain ⟨k, x', y', m', a, b, hk, hr, ha, hb, rfl⟩ := hrel
    obtain ⟨ys, py, sy, oy⟩ := reach_shuffled hx0 hoff hr
    have hl : ys.length = xs.length := py.length_eq
    have hin : ∀ c, (m' c).isSome → InRange first xs.length c := by
      intro c hc
      by_contra hn
      rw [oy c hn] at hc
      simp at hc
    have r1 := hin a ha
    have r2 := hin b hb
    simp only [InRange] at r1 r2
    refine ⟨k, x', y', ys, a - first, b - first, hk, py, by omega, by omega, ?_, ?_⟩
    · intro i hi
      simp only [List.length_set] at hi
      simp only [hsome]
      rw [if_pos (by simp [InRange]; omega)]
      by_cases e1 : i = b - first
      · subst e1
        rw [show first + (b - first) = b by omega, upd_same]
        simp
      · rw [upd_other _ _ (by omega), List.getElem_set_ne (by omega)]
        by_cases e2 : i = a - first
        · subst e2
          rw [show first + (a - first) = a by omega, upd_same]
          simp
        · rw [upd_other _ _ (by omega), List.getElem_set_ne (by omega)]
          exact sy i (by omega)
    · intro c hc
      simp only [hsome]
      rw [if_neg (by simpa using hc)]

/-- **C92**, `partition`: whatever the predicate answers and wherever a call of it or a swap throws, nothing undefined happens, the elements have
been rearranged, and after an exception of a swap all but two of them are there, which are what that swap has left. Nothing outside of the
range changes. -/
theorem C92_partition (bidir : Bool) (f : τ → α → Option (Bool × τ)) (sw : Swaps α) (t : τ) {first : Nat} {xs : List α} {m : Mem α} (hx : m.Seg first xs) :
    match (partitionS bidir first (first + xs.length)).exec f sw t 0 m with
    | .returned r m' => Shuffled first xs.length m m' ∧ first ≤ r ∧ r ≤ first + xs.length
    | .asked m' => Shuffled first xs.length m m'
    | .swapped m' => Disturbed sw first xs m m'
    | .ub => False := by
  have h78 := C78_partition (rangeOf_seg hx) bidir f t
  rw [← partitionS_toA] at h78
  have h := SProg.disturbed f sw (partitionS bidir first (first + xs.length)) t hx
    (by intro e; simp [Outcome, Ask.Ends, e] at h78)
    (by intro r m' e; simp only [Outcome, Ask.Ends, e] at h78; exact h78.1)
    (by intro m' e; simp only [Outcome, Ask.Ends, e] at h78; exact h78)
  cases e : (partitionS bidir first (first + xs.length)).exec f sw t 0 m with
  | ub => rw [e] at h; exact h
  | asked m' => rw [e] at h; exact h
  | swapped m' => rw [e] at h; exact h
  | returned r m' =>
    rw [e] at h
    obtain ⟨h1, m'', h2, -⟩ := h
    simp only [Outcome, Ask.Ends, h2] at h78
    exact ⟨h1, h78.2.1, h78.2.2.1⟩

/-- **C92**, `iterator_partition`: the same, if the comparison does not contradict the function it stands for when it answers; a result is a
partition. -/
theorem C92_iterator_partition {cmp : α → α → Bool} (hirr : ∀ x, cmp x x = false) {f : τ → α × α → Option (Bool × τ)} (hf : Honest (uncurry2 cmp) f)
    (sw : Swaps α) (t : τ) {first c : Nat} {xs : List α} {v : α} {m : Mem α} (hx : m.Seg first xs) (hv : xs[c]? = some v) :
    match (iteratorPartitionS first (first + c) (first + xs.length)).exec f sw t 0 m with
    | .returned r m' => Shuffled first xs.length m m' ∧ ∃ ys k, r = first + k ∧ m'.Seg first ys ∧ IsPartition (fun x => cmp x v) xs ys k
    | .asked m' => Shuffled first xs.length m m'
    | .swapped m' => Disturbed sw first xs m m'
    | .ub => False := by
  have h78 := C78_iterator_partition hirr (rangeOf_seg hx) hv hf t
  rw [← iteratorPartitionS_toA] at h78
  have h := SProg.disturbed f sw (iteratorPartitionS first (first + c) (first + xs.length)) t hx
    (by intro e; simp [Ask.Ends, e] at h78)
    (by
      intro r m' e
      simp only [Ask.Ends, e, Option.some.injEq, Prod.mk.injEq] at h78
      obtain ⟨m1, ys, k, ⟨rfl, -⟩, s1, p1, o1, -⟩ := h78
      exact .of_seg (rangeOf_seg hx) rfl p1.1 s1 o1)
    (by intro m' e; simp only [Ask.Ends, e] at h78; exact h78)
  cases e : (iteratorPartitionS first (first + c) (first + xs.length)).exec f sw t 0 m with
  | ub => rw [e] at h; exact h
  | asked m' => rw [e] at h; exact h
  | swapped m' => rw [e] at h; exact h
  | returned r m' =>
    rw [e] at h
    obtain ⟨h1, m'', h2, h3⟩ := h
    simp only [Ask.Ends, h2, Option.some.injEq, Prod.mk.injEq] at h78
    obtain ⟨m1, ys, k, ⟨rfl, rfl⟩, s1, p1, o1, -⟩ := h78
    refine ⟨h1, ys, k, rfl, ?_, p1⟩
    intro i hi
    have hl : ys.length = xs.length := p1.1.length_eq
    rw [h3 _ (by simp [InRange]; omega)]
    exact s1 i hi

/-- Four elements, of which the even ones go first; the first swap throws and leaves 100 and 200. -/
example : (partitionS true 0 4).exec (fun (t : Unit) (x : Nat) => some (x % 2 == 0, t)) (fun _ => some (100, 200)) () 0 (only [1, 3, 4, 6]) =
    .swapped (upd (upd (only [1, 3, 4, 6]) 0 (some 100)) 3 (some 200)) := rfl

/-- The second one. -/
example : ∃ m, (partitionS true 0 4).exec (fun (t : Unit) (x : Nat) => some (x % 2 == 0, t)) (fun k => if k = 1 then some (100, 200) else none) () 0
    (only [1, 3, 4, 6]) = .swapped m ∧ (List.range 4).map m = [some 6, some 100, some 200, some 1] := ⟨_, rfl, rfl⟩

end Verif.Algo.Swapping
