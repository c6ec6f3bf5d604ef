import Verif.Lists.BidirProps
import Verif.Lists.ForwardProps

/-!
# Elements of a list as the source of `append` and `append_after` (C85)

In `Bidir.lean` and `Forward.lean` the source of these functions is a list of values that are known beforehand. Here it is a range of nodes, which can be nodes of the list that
changes: each element is read when its turn comes, and the next node is looked up after the new one has been linked.
-/

namespace Verif.Lists

variable {V : Type}

/-! ## Model -/

/-- At most `n` rounds of the loop of `append(target, subrange(it, last))` (`append.cpp` 74-82, `algorithms/copy_or_relocate_from.cpp` 27-51,
`bidirectional_linked_list.cpp` 137-141); `last` was computed before the loop. Gives the memory and the iterator. The loop has ended if that is `last`. -/
def LHeap.appendRounds (l last : Nat) : Nat → LHeap V → Nat → Option (LHeap V × Nat)
  | 0, h, it => some (h, it)
  | n + 1, h, it =>
    if it = last then some (h, it)
    else match h.valOf it with
      | some (some v) => do
        let h ← h.pushNode l v
        let it ← h.nextOf it
        appendRounds l last n h it
      | _ => none

/-- At most `n` rounds of the loop of `append_after(target, before, subrange(it, last))` (`append_after.cpp` 23-28, `forward_linked_list.cpp` 96-103); the end of a list is a null
pointer. -/
def FHeap.appendAfterRounds (last : Option Nat) : Nat → FHeap V → Nat → Option Nat → Option (FHeap V × Option Nat)
  | 0, h, _, it => some (h, it)
  | n + 1, h, before, it =>
    if it = last then some (h, it)
    else match it with
      | none => none
      | some a =>
        match h.valOf a with
        | some (some v) => do
          let ptr := h.next
          let h ← h.insertNode before v
          let it ← h.nextOf a
          appendAfterRounds last n h ptr it
        | _ => none

/-! ## Doubly linked lists -/

theorem next_of_split {h : LHeap V} {A : Abs V} (r : Rel h A) {s : Nat} {P Q : List (Nat × V)} {x : Nat × V} (hs : A.lists s = some (P ++ x :: Q)) :
    h.nextOf x.1 = some (headId Q s) ∧ h.valOf x.1 = some (some x.2) ∧ x.1 ≠ s := by
  refine ⟨?_, r.vals hs (by simp : (x.1, x.2) ∈ P ++ x :: Q), r.sentNe hs hs (by simp [ids])⟩
  have e : P ++ x :: Q = (P ++ [x]) ++ Q := by simp
  rw [e] at hs
  have := (ring_split.1 (r.ring hs)).2.2.1
  rwa [lastId_append (k' := s) (by simp)] at this

/-- The nodes from some element of `M` on are not where `M` ends. -/
theorem first_ne_last {h : LHeap V} {A : Abs V} (r : Rel h A) {s : Nat} {P M Q : List (Nat × V)} {x : Nat × V} (hs : A.lists s = some (P ++ x :: (M ++ Q))) : x.1 ≠ headId Q s := by
  rcases headId_uses s Q with e | e
  · rw [e]; exact (next_of_split r hs).2.2
  · have hn := r.nodup hs
    rw [ids, List.map_append, List.map_cons, List.map_append] at hn
    have := (List.nodup_cons.1 (List.nodup_append.1 hn).2.1).1
    intro he
    exact this (List.mem_append_right _ (he ▸ e))

theorem append_rounds {s l : Nat} : ∀ (M P Q : List (Nat × V)) {h : LHeap V} {A : Abs V} {ys : List (Nat × V)} (_ : Rel h A) (_ : A.lists s = some (P ++ M ++ Q))
    (_ : A.lists l = some ys) (_ : s ≠ l ∨ Q ≠ []) (n : Nat), M.length ≤ n →
    ∃ h', h.appendRounds l (headId Q s) n (headId (M ++ Q) s) = some (h', headId Q s) ∧
      Rel h' ((A.set l (ys ++ number A.next (M.map (·.2)))).use M.length) := by
  intro M
  induction M with
  | nil =>
    intro P Q h A ys r hs hl hne n hn
    refine ⟨h, ?_, ?_⟩
    · cases n with
      | zero => rfl
      | succ n => rw [LHeap.appendRounds, List.nil_append, if_pos rfl]
    · simpa [number, Abs.set_self hl, Abs.use] using r
  | cons x M ih =>
    intro P Q h A ys r hs hl hne n hn
    have hs' : A.lists s = some (P ++ x :: (M ++ Q)) := by simpa using hs
    obtain ⟨n, rfl⟩ : ∃ k, n = k + 1 := ⟨n - 1, by simp at hn; omega⟩
    obtain ⟨h1, e1, r1⟩ := pushNode_spec r hl x.2
    let A1 : Abs V := { lists := upd A.lists l (some (ys ++ [(A.next, x.2)])), next := A.next + 1 }
    have hit : headId (x :: M ++ Q) s = x.1 := rfl
    obtain ⟨Q', hq, hne', hs1⟩ : ∃ Q', headId Q' s = headId Q s ∧ (s ≠ l ∨ Q' ≠ []) ∧ A1.lists s = some ((P ++ [x]) ++ M ++ Q') := by
      by_cases hsl : s = l
      · subst hsl
        have hQ := hne.resolve_left (by simp)
        refine ⟨Q ++ [(A.next, x.2)], headId_append hQ, Or.inr (by simp), ?_⟩
        rw [hs] at hl
        injection hl with hl
        simp only [A1, upd_same, ← hl]
        simp
      · exact ⟨Q, rfl, Or.inl hsl, by simp only [A1, upd_other _ _ hsl]; rw [hs]; simp⟩
    obtain ⟨h2, e2, r2⟩ := ih (P ++ [x]) Q' r1 hs1 (ys := ys ++ [(A.next, x.2)]) (by simp [upd_same]) hne' n (by simp at hn; omega)
    have hnx := (next_of_split r1 (P := P) (x := x) (Q := M ++ Q') (by simpa [A1] using hs1)).1
    refine ⟨h2, ?_, ?_⟩
    · rw [hit, LHeap.appendRounds, if_neg (first_ne_last r hs'), (next_of_split r hs').2.1]
      simp only [e1, Option.bind_eq_bind, Option.bind_some, hnx]
      rw [hq] at e2
      exact e2
    · simp only [Abs.set, Abs.use, upd_upd, List.append_assoc] at r2 ⊢
      rw [List.map_cons, number, List.length_cons, show A.next + (M.length + 1) = A.next + 1 + M.length by omega]
      exact r2

/-- `append` with a range of another list, or with a range of the list itself that ends before the end of the list, appends copies of exactly these elements. -/
theorem C85_list_append {h : LHeap V} {A : Abs V} {s l : Nat} {P M Q ys : List (Nat × V)} (r : Rel h A) (hs : A.lists s = some (P ++ M ++ Q)) (hl : A.lists l = some ys)
    (hne : s ≠ l ∨ Q ≠ []) {n : Nat} (hn : M.length ≤ n) :
    ∃ h', h.appendRounds l (headId Q s) n (headId (M ++ Q) s) = some (h', headId Q s) ∧
      LShows h' ((A.set l (ys ++ number A.next (M.map (·.2)))).use M.length) := by
  obtain ⟨h', e, r'⟩ := append_rounds M P Q r hs hl hne n hn
  exact ⟨h', e, r'.shows⟩

/-- Appending a list to itself, or any range of it that is not empty and goes up to its end, never ends: after any number of rounds there is another element to append, and the list
has got an element longer in each of them. -/
theorem C85_list_append_itself_violated {l : Nat} : ∀ (n : Nat) {h : LHeap V} {A : Abs V} {P M : List (Nat × V)} (_ : Rel h A) (_ : A.lists l = some (P ++ M)) (_ : M ≠ []),
    ∃ h' it new, h.appendRounds l l n (headId M l) = some (h', it) ∧ it ≠ l ∧ new.length = n ∧ LShows h' ((A.set l (P ++ M ++ new)).use n) := by
  have main : ∀ (n : Nat) {h : LHeap V} {A : Abs V} {P M : List (Nat × V)} (_ : Rel h A) (_ : A.lists l = some (P ++ M)) (_ : M ≠ []),
      ∃ h' it new, h.appendRounds l l n (headId M l) = some (h', it) ∧ it ≠ l ∧ new.length = n ∧ Rel h' ((A.set l (P ++ M ++ new)).use n) := by
    intro n
    induction n with
    | zero =>
      intro h A P M r hl hM
      cases M with
      | nil => exact absurd rfl hM
      | cons x M => exact ⟨h, x.1, [], rfl, (next_of_split r hl).2.2, rfl, by simpa [Abs.set_self hl, Abs.use] using r⟩
    | succ n ih =>
      intro h A P M r hl hM
      cases M with
      | nil => exact absurd rfl hM
      | cons x M =>
        obtain ⟨hnx, hv, hne⟩ := next_of_split r hl
        obtain ⟨h1, e1, r1⟩ := pushNode_spec r hl x.2
        have hl1 : ({ lists := upd A.lists l (some (P ++ x :: M ++ [(A.next, x.2)])), next := A.next + 1 } : Abs V).lists l = some ((P ++ [x]) ++ (M ++ [(A.next, x.2)])) := by
          simp [upd_same]
        obtain ⟨h2, it, new, e2, hit, hlen, r2⟩ := ih r1 hl1 (by simp)
        have hnx1 := (next_of_split r1 (s := l) (P := P) (x := x) (Q := M ++ [(A.next, x.2)]) (by simp [upd_same])).1
        refine ⟨h2, it, (A.next, x.2) :: new, ?_, hit, by simp [hlen], ?_⟩
        · change h.appendRounds l l (n + 1) x.1 = _
          rw [LHeap.appendRounds, if_neg hne, hv]
          simp only [e1, Option.bind_eq_bind, Option.bind_some, hnx1]
          exact e2
        · simp only [Abs.set, Abs.use, upd_upd, List.append_assoc, List.cons_append, List.nil_append] at r2 ⊢
          rw [show A.next + (n + 1) = A.next + 1 + n by omega]
          exact r2
  intro n h A P M r hl hM
  obtain ⟨h', it, new, e, hit, hlen, r'⟩ := main n r hl hM
  exact ⟨h', it, new, e, hit, hlen, r'.shows⟩

/-! ## Singly linked lists -/

theorem fnext_of_split {h : FHeap V} {A : Abs V} (r : FRel h A) {s : Nat} {P Q : List (Nat × V)} {x : Nat × V} (hs : A.lists s = some (P ++ x :: Q)) :
    h.nextOf x.1 = some (startOf (ids Q) none) ∧ h.valOf x.1 = some (some x.2) := by
  refine ⟨?_, r.node.2 ⟨s, _, hs, by simp⟩⟩
  have e : P ++ x :: Q = (P ++ [x]) ++ Q := by simp
  rw [e] at hs
  have := r.path hs
  rw [ids, List.map_append, path_append] at this
  have := path_last this.1
  simpa [ids] using this

theorem ffirst_ne_last {h : FHeap V} {A : Abs V} (r : FRel h A) {s : Nat} {P M Q : List (Nat × V)} {x : Nat × V} (hs : A.lists s = some (P ++ x :: (M ++ Q))) :
    some x.1 ≠ startOf (ids Q) none := by
  cases Q with
  | nil => simp [startOf]
  | cons q Q =>
    have hn := r.nodup hs
    rw [ids, List.map_append, List.map_cons, List.map_append] at hn
    have := (List.nodup_cons.1 (List.nodup_append.1 hn).2.1).1
    intro he
    simp [startOf, ids] at he
    exact this (List.mem_append_right _ (by simp [he]))

/-- The place behind the nodes `U` is not inside of the nodes `M` that follow `P`, and not directly behind them. -/
def Apart (P M U : List (Nat × V)) : Prop := (∃ R, P = U ++ R) ∨ (∃ R, R ≠ [] ∧ U = P ++ M ++ R)

theorem append_after_rounds {s l : Nat} : ∀ (M P Q U W : List (Nat × V)) {h : FHeap V} {A : Abs V} (_ : FRel h A) (_ : A.lists s = some (P ++ M ++ Q))
    (_ : A.lists l = some (U ++ W)) (_ : s ≠ l ∨ Apart P M U) (n : Nat), M.length ≤ n →
    ∃ h', h.appendAfterRounds (startOf (ids Q) none) n (lastId l U) (startOf (ids (M ++ Q)) none) = some (h', startOf (ids Q) none) ∧
      FRel h' ((A.set l (U ++ number A.next (M.map (·.2)) ++ W)).use M.length) := by
  intro M
  induction M with
  | nil =>
    intro P Q U W h A r hs hl hne n hn
    refine ⟨h, ?_, ?_⟩
    · cases n with
      | zero => rfl
      | succ n => rw [FHeap.appendAfterRounds.eq_def]; simp
    · simpa [number, Abs.set_self hl, Abs.use] using r
  | cons x M ih =>
    intro P Q U W h A r hs hl hne n hn
    have hs' : A.lists s = some (P ++ x :: (M ++ Q)) := by simpa using hs
    obtain ⟨n, rfl⟩ : ∃ k, n = k + 1 := ⟨n - 1, by simp at hn; omega⟩
    obtain ⟨h1, e1, r1⟩ := finsert_spec r hl x.2
    let y := (A.next, x.2)
    let A1 : Abs V := ⟨upd A.lists l (some (U ++ y :: W)), A.next + 1⟩
    obtain ⟨P', Q', hq, hne', hs1⟩ : ∃ P' Q', startOf (ids Q') none = startOf (ids Q) none ∧ (s ≠ l ∨ Apart (P' ++ [x]) M (U ++ [y])) ∧
        A1.lists s = some (P' ++ x :: (M ++ Q')) := by
      by_cases hsl : s = l
      · subst hsl
        rw [hs] at hl
        injection hl with hl
        rcases hne.resolve_left (by simp) with ⟨R, rfl⟩ | ⟨R, hR, rfl⟩
        · refine ⟨U ++ y :: R, Q, rfl, Or.inr (Or.inl ⟨R ++ [x], by simp⟩), ?_⟩
          have : W = R ++ (x :: M) ++ Q := by simpa using hl.symm
          simp only [A1, upd_same, this]
          simp
        · have hQ : Q = R ++ W := by simpa using hl
          refine ⟨P, R ++ y :: W, ?_, Or.inr (Or.inr ⟨R ++ [y], by simp, by simp⟩), ?_⟩
          · rw [hQ]
            cases R with
            | nil => exact absurd rfl hR
            | cons a R => rfl
          · simp only [A1, upd_same]
            simp
      · exact ⟨P, Q, rfl, Or.inl hsl, by simp only [A1, upd_other _ _ hsl]; exact hs'⟩
    obtain ⟨h2, e2, r2⟩ := ih (P' ++ [x]) Q' (U ++ [y]) W (A := A1) r1 (by rw [hs1]; simp) (by simp [A1, upd_same]) hne' n (by simp at hn; omega)
    have hnx := (fnext_of_split (A := A1) r1 hs1).1
    have hlast : lastId l (U ++ [y]) = h.next := by simp [lastId, ids, y, r.same]
    refine ⟨h2, ?_, ?_⟩
    · change h.appendAfterRounds _ (n + 1) _ (some x.1) = _
      rw [FHeap.appendAfterRounds, if_neg (ffirst_ne_last r hs')]
      simp only [(fnext_of_split r hs').2, e1, Option.bind_eq_bind, Option.bind_some, hnx]
      rw [hq, hlast] at e2
      exact e2
    · simp only [A1, y, Abs.set, Abs.use, upd_upd, List.append_assoc, List.cons_append, List.nil_append] at r2 ⊢
      rw [List.map_cons, number, List.length_cons, show A.next + (M.length + 1) = A.next + 1 + M.length by omega]
      exact r2

/-- `append_after` with a range of another list, or with a range of the list itself, the position being before the range or behind the element that follows it, inserts copies of exactly
these elements. -/
theorem C85_forward_append_after {h : FHeap V} {A : Abs V} {s l : Nat} {P M Q U W : List (Nat × V)} (r : FRel h A) (hs : A.lists s = some (P ++ M ++ Q))
    (hl : A.lists l = some (U ++ W)) (hne : s ≠ l ∨ Apart P M U) {n : Nat} (hn : M.length ≤ n) :
    ∃ h', h.appendAfterRounds (startOf (ids Q) none) n (lastId l U) (startOf (ids (M ++ Q)) none) = some (h', startOf (ids Q) none) ∧
      FShows h' ((A.set l (U ++ number A.next (M.map (·.2)) ++ W)).use M.length) := by
  obtain ⟨h', e, r'⟩ := append_after_rounds M P Q U W r hs hl hne n hn
  exact ⟨h', e, r'.shows⟩

/-- If the position is one of the elements of the range, `append_after` never ends. -/
theorem C85_forward_append_after_itself_violated {l : Nat} : ∀ (n : Nat) {h : FHeap V} {A : Abs V} {P M N Q : List (Nat × V)} (_ : FRel h A)
    (_ : A.lists l = some (P ++ M ++ N ++ Q)) (_ : M ≠ []),
    ∃ h' it new, h.appendAfterRounds (startOf (ids Q) none) n (lastId l (P ++ M)) (startOf (ids (M ++ N ++ Q)) none) = some (h', some it) ∧ some it ≠ startOf (ids Q) none ∧
      new.length = n ∧ FShows h' ((A.set l (P ++ M ++ new ++ N ++ Q)).use n) := by
  have main : ∀ (n : Nat) {h : FHeap V} {A : Abs V} {P M N Q : List (Nat × V)} (_ : FRel h A) (_ : A.lists l = some (P ++ M ++ N ++ Q)) (_ : M ≠ []),
      ∃ h' it new, h.appendAfterRounds (startOf (ids Q) none) n (lastId l (P ++ M)) (startOf (ids (M ++ N ++ Q)) none) = some (h', some it) ∧ some it ≠ startOf (ids Q) none ∧
        new.length = n ∧ FRel h' ((A.set l (P ++ M ++ new ++ N ++ Q)).use n) := by
    intro n
    induction n with
    | zero =>
      intro h A P M N Q r hl hM
      cases M with
      | nil => exact absurd rfl hM
      | cons x M =>
        exact ⟨h, x.1, [], rfl, ffirst_ne_last (M := M ++ N) r (P := P) (by rw [hl]; simp), rfl, by
          rw [List.append_nil, Abs.set_self hl]; exact r⟩
    | succ n ih =>
      intro h A P M N Q r hl hM
      cases M with
      | nil => exact absurd rfl hM
      | cons x M =>
        have hs' : A.lists l = some (P ++ x :: ((M ++ N) ++ Q)) := by rw [hl]; simp
        obtain ⟨h1, e1, r1⟩ := finsert_spec (P := P ++ x :: M) (Q := N ++ Q) r (by rw [hl]; simp) x.2
        let y := (A.next, x.2)
        let A1 : Abs V := ⟨upd A.lists l (some (P ++ x :: M ++ y :: (N ++ Q))), A.next + 1⟩
        have hl1 : A1.lists l = some ((P ++ [x]) ++ (M ++ [y]) ++ N ++ Q) := by simp [A1, upd_same]
        obtain ⟨h2, it, new, e2, hit, hlen, r2⟩ := ih (A := A1) r1 hl1 (by simp)
        have hnx := (fnext_of_split (A := A1) r1 (P := P) (x := x) (Q := M ++ [y] ++ N ++ Q) (by rw [hl1]; simp)).1
        have hlast : lastId l (P ++ [x] ++ (M ++ [y])) = h.next := by
          rw [← List.append_assoc, lastId_append (k' := l) (by simp)]; simp [lastId, ids, y, r.same]
        refine ⟨h2, it, y :: new, ?_, hit, by simp [hlen], ?_⟩
        · change h.appendAfterRounds _ (n + 1) _ (some x.1) = _
          rw [FHeap.appendAfterRounds, if_neg (ffirst_ne_last r hs')]
          simp only [(fnext_of_split r hs').2, e1, Option.bind_eq_bind, Option.bind_some, hnx]
          rw [hlast] at e2
          exact e2
        · simp only [A1, y, Abs.set, Abs.use, upd_upd, List.append_assoc, List.cons_append, List.nil_append] at r2 ⊢
          rw [show A.next + (n + 1) = A.next + 1 + n by omega]
          exact r2
  intro n h A P M N Q r hl hM
  obtain ⟨h', it, new, e, hit, hlen, r'⟩ := main n r hl hM
  exact ⟨h', it, new, e, hit, hlen, r'.shows⟩

/-! ## Concrete cases -/

/-- The list `10, 20, 30`, at address 0, and the list `7`, at address 4. -/
def self : List (LOp Nat) := [.new, .pushBack 0 10 false, .pushBack 0 20 false, .pushBack 0 30 false, .new, .pushBack 4 7 false]

/-- The hypotheses hold for the range of the first two elements of the list, for the list itself and another list as the target, and for the whole list. -/
example : ∃ h A, Rel h A ∧ A.lists 0 = some ([] ++ [(1, 10), (2, 20)] ++ [(3, 30)]) ∧ A.lists 4 = some [(5, 7)] ∧
    A.lists 0 = some ([] ++ [(1, 10), (2, 20), (3, (30 : Nat))]) := by
  have hp : PreHist Abs.spec Abs.pre (Abs.start Nat) self := by
    refine ⟨?_, ?_, ?_, ?_, ?_, ?_, trivial⟩ <;> simp [Abs.pre, Abs.Has, Abs.spec, Abs.start, Abs.set, Abs.use, Abs.at', Abs.made, upd, number]
  obtain ⟨h, _, r⟩ := runHist_refines (R := Rel) lstep_refines self (LHeap.start Nat) (Abs.start Nat) (rel_start Nat) hp
  exact ⟨h, _, r, by rfl, by rfl, by rfl⟩

example : (runHist lstep (LHeap.start Nat) self).bind (fun p => (p.1.appendRounds 0 3 9 1).map fun q => (q.1.forward 0, q.2)) =
    some (some [10, 20, 30, 10, 20], 3) := by rfl

/-- The whole list: seven rounds, and the next element is at the address 10. -/
example : (runHist lstep (LHeap.start Nat) self).bind (fun p => (p.1.appendRounds 0 0 7 1).map fun q => (q.1.forward 0, q.2)) =
    some (some [10, 20, 30, 10, 20, 30, 10, 20, 30, 10], 10) := by rfl

/-- The singly linked list `10, 20, 30`, its nodes at 3, 2 and 1. -/
def fself : List (FOp Nat) := [.new, .pushFront 0 30 false, .pushFront 0 20 false, .pushFront 0 10 false]

example : ∃ h A, FRel h A ∧ A.lists 0 = some ([(3, 10)] ++ [(2, 20)] ++ [(1, (30 : Nat))]) ∧ Apart [(3, 10)] [(2, (20 : Nat))] [(3, 10)] ∧
    Apart [(3, 10)] [(2, (20 : Nat))] [(3, 10), (2, 20), (1, 30)] := by
  have hp : PreHist Abs.fspec Abs.fpre (Abs.start Nat) fself := by
    refine ⟨?_, ?_, ?_, ?_, trivial⟩ <;> simp [Abs.fpre, Abs.Has, Abs.fspec, Abs.start, Abs.set, Abs.use, Abs.at', Abs.made, upd, number]
  obtain ⟨h, _, r⟩ := runHist_refines (R := FRel) fstep_refines fself (FHeap.start Nat) (Abs.start Nat) (frel_start Nat) hp
  exact ⟨h, _, r, by rfl, Or.inl ⟨[], rfl⟩, Or.inr ⟨[(1, 30)], by simp, rfl⟩⟩

/-- The first two elements, behind the last one and behind the second one. -/
example : (runHist fstep (FHeap.start Nat) fself).bind (fun p => (p.1.appendAfterRounds (some 1) 9 1 (some 3)).map fun q => (q.1.forward 0, q.2)) =
    some (some [10, 20, 30, 10, 20], some 1) := by rfl

example : (runHist fstep (FHeap.start Nat) fself).bind (fun p => (p.1.appendAfterRounds (some 1) 5 2 (some 3)).map fun q => (q.1.forward 0, q.2)) =
    some (some [10, 20, 10, 20, 10, 20, 10, 30], some 7) := by rfl

end Verif.Lists
