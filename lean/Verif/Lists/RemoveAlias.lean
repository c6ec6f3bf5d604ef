import Verif.Lists.SelfAppend

/-!
# Removing the elements that are equal to an element of the list itself (C86)

`list::remove(value)` keeps a reference to `value`, and each comparison reads it. In `Bidir.lean` the predicate of `erase_if` is a function of the element; here it reads the memory,
from which `erase_if` removes nodes.
-/

namespace Verif.Lists

variable {V : Type}

/-! ## Model -/

/-- `list::remove(value)` (`std/list.cpp` 401-406, `algorithms/erase.cpp` 91-101, `bounded/comparison_function_object.cpp` 19-48) from the node `it` on, where `value` is the element of
the node `ref`. A loop that does not end within the given number of steps counts as undefined behaviour, and so does reading an element that has been destroyed. The member `m_size`, which
is not read, is left out; see `SizedList.lean`. -/
def LHeap.removeLoop (eq : V → V → Bool) (ref : Nat) : Nat → LHeap V → Nat → Nat → Nat → Option (LHeap V × Nat)
  | 0, _, _, _, _ => none
  | n + 1, h, l, it, result =>
    if it = l then some (h, result)
    else match h.cell it, h.valOf ref with
      | some ⟨_, nx, some v⟩, some (some value) =>
        if eq value v then do
          let h ← h.eraseOne l it
          removeLoop eq ref n h l nx (result + 1)
        else removeLoop eq ref n h l nx result
      | _, _ => none

/-- `list::remove(value)` (`std/list.cpp` 401-406), from the first element on. -/
def LHeap.remove (h : LHeap V) (eq : V → V → Bool) (l ref : Nat) : Option (LHeap V × Nat) := do
  let b ← h.nextOf l
  h.removeLoop eq ref (h.next + 1) l b 0

/-! ## Proofs -/

/-- The element `x` stays where it is while the elements `Q`, the last ones of the list `l`, are compared with it. -/
def Stays (eq : V → V → Bool) (A : Abs V) (l : Nat) (P Q : List (Nat × V)) (x : Nat × V) : Prop :=
  (∃ s ys, s ≠ l ∧ A.lists s = some ys ∧ x ∈ ys) ∨ x ∈ P ∨ (x ∈ Q ∧ eq x.2 x.2 = false) ∨ ∃ R, Q = R ++ [x]

theorem Stays.val {eq : V → V → Bool} {h : LHeap V} {A : Abs V} {l : Nat} {P Q : List (Nat × V)} {x : Nat × V} (r : Rel h A) (hl : A.lists l = some (P ++ Q))
    (s : Stays eq A l P Q x) : h.valOf x.1 = some (some x.2) := by
  rcases s with ⟨s, ys, _, hs, hx⟩ | hx | ⟨hx, _⟩ | ⟨R, rfl⟩
  · exact r.vals hs hx
  · exact r.vals hl (List.mem_append_left _ hx)
  · exact r.vals hl (List.mem_append_right _ hx)
  · exact r.vals hl (by simp)

theorem removeLoop_op (eq : V → V → Bool) (x : Nat × V) : ∀ (Q : List (Nat × V)) {n : Nat} {h : LHeap V} {A : Abs V} {l : Nat} {P : List (Nat × V)} {c : Nat}
    (_ : Rel h A) (_ : A.lists l = some (P ++ Q)) (_ : Q.length < n) (_ : Q = [] ∨ Stays eq A l P Q x),
    ∃ h', h.removeLoop eq x.1 n l (headId Q l) c = some (h', c + Q.countP fun y => eq x.2 y.2) ∧
      Rel h' ((A.set l (P ++ Q.filter fun y => !eq x.2 y.2)).use (Q.countP fun y => eq x.2 y.2)) := by
  intro Q
  induction Q with
  | nil =>
    intro n h A l P c r hl hn _
    cases n with
    | zero => simp at hn
    | succ n =>
      refine ⟨h, by simp [LHeap.removeLoop, headId], ?_⟩
      simp only [List.filter_nil, List.countP_nil, Abs.set_self hl]
      exact r
  | cons z Q ih =>
    intro n h A l P c r hl hn hs
    have hs := hs.resolve_left (by simp)
    cases n with
    | zero => simp at hn
    | succ n =>
      have hv : h.valOf z.1 = some (some z.2) := r.vals hl (by simp)
      obtain ⟨pv, nx, hc⟩ := cell_of_val hv
      have hnx : nx = headId Q l := by
        have := nextOf_node r hl
        simp only [LHeap.nextOf, hc, Option.map_some, Option.some.injEq] at this
        exact this
      have hzl : z.1 ≠ l := fun e => r.notMem hl (by rw [← e]; simp [ids])
      show ∃ h', h.removeLoop eq x.1 (n + 1) l z.1 c = _ ∧ _
      rw [LHeap.removeLoop, if_neg hzl, hc, hs.val r hl]
      simp only
      by_cases hp : eq x.2 z.2 = true
      · rw [if_pos hp]
        obtain ⟨h1, e1, r1⟩ := eraseOne_op r hl
        have hs' : Q = [] ∨ Stays eq ((A.set l (P ++ Q)).use 1) l P Q x := by
          rcases hs with ⟨s, ys, hsl, hs, hx⟩ | hx | ⟨hx, hq⟩ | ⟨R, hR⟩
          · exact Or.inr (Or.inl ⟨s, ys, hsl, by simp only [Abs.set, Abs.use, upd_other _ _ hsl]; exact hs, hx⟩)
          · exact Or.inr (Or.inr (Or.inl hx))
          · rcases List.mem_cons.1 hx with rfl | hx
            · rw [hp] at hq; cases hq
            · exact Or.inr (Or.inr (Or.inr (Or.inl ⟨hx, hq⟩)))
          · cases R with
            | nil => simp at hR; exact Or.inl hR.2
            | cons a R => simp at hR; exact Or.inr (Or.inr (Or.inr (Or.inr ⟨R, hR.2⟩)))
        obtain ⟨h2, e2, r2⟩ := ih (n := n) (c := c + 1) (l := l) (P := P) r1 (by simp [Abs.set, Abs.use]) (by simp at hn; omega) hs'
        refine ⟨h2, ?_, ?_⟩
        · simp only [e1, Option.bind_eq_bind, Option.bind_some, hnx, e2]
          rw [List.countP_cons_of_pos (p := fun y : Nat × V => eq x.2 y.2) hp]
          congr 2
          omega
        · rw [List.countP_cons_of_pos (p := fun y : Nat × V => eq x.2 y.2) hp, List.filter_cons_of_neg (by simp [hp])]
          simp only [Abs.set, Abs.use, upd_upd] at r2 ⊢
          rw [Nat.add_assoc, Nat.add_comm 1] at r2
          exact r2
      · rw [if_neg hp]
        have hs' : Q = [] ∨ Stays eq A l (P ++ [z]) Q x := by
          rcases hs with hs | hx | ⟨hx, hq⟩ | ⟨R, hR⟩
          · exact Or.inr (Or.inl hs)
          · exact Or.inr (Or.inr (Or.inl (List.mem_append_left _ hx)))
          · rcases List.mem_cons.1 hx with rfl | hx
            · exact Or.inr (Or.inr (Or.inl (by simp)))
            · exact Or.inr (Or.inr (Or.inr (Or.inl ⟨hx, hq⟩)))
          · cases R with
            | nil => simp at hR; exact Or.inl hR.2
            | cons a R => simp at hR; exact Or.inr (Or.inr (Or.inr (Or.inr ⟨R, hR.2⟩)))
        obtain ⟨h2, e2, r2⟩ := ih (n := n) (c := c) (l := l) (P := P ++ [z]) r (by simpa using hl) (by simp at hn; omega) hs'
        refine ⟨h2, ?_, ?_⟩
        · rw [hnx, e2, List.countP_cons_of_neg (p := fun y : Nat × V => eq x.2 y.2) hp]
        · rw [List.countP_cons_of_neg (p := fun y : Nat × V => eq x.2 y.2) hp, List.filter_cons_of_pos (by simp [hp])]
          simpa using r2

/-- `remove` with an element of another list, with the last element of the list, or with an element that is not equal to itself removes exactly the elements that are equal to it. It
gives their number. -/
theorem C86_list_remove_partial {h : LHeap V} {A : Abs V} {s l : Nat} {P Q xs : List (Nat × V)} {x : Nat × V} (eq : V → V → Bool) (r : Rel h A) (hs : A.lists s = some (P ++ x :: Q))
    (hl : A.lists l = some xs) (ho : s ≠ l ∨ Q = [] ∨ eq x.2 x.2 = false) :
    ∃ h', h.remove eq l x.1 = some (h', xs.countP fun y => eq x.2 y.2) ∧
      LShows h' ((A.set l (xs.filter fun y => !eq x.2 y.2)).use (xs.countP fun y => eq x.2 y.2)) := by
  have hst : Stays eq A l [] xs x := by
    by_cases hsl : s = l
    · subst hsl
      rw [hs] at hl
      injection hl with hl
      subst hl
      rcases ho with h | rfl | h
      · exact absurd rfl h
      · exact Or.inr (Or.inr (Or.inr ⟨P, rfl⟩))
      · exact Or.inr (Or.inr (Or.inl ⟨by simp, h⟩))
    · exact Or.inl ⟨s, _, hsl, hs, by simp⟩
  obtain ⟨h', e, r'⟩ := removeLoop_op eq x xs (n := h.next + 1) (P := []) (c := 0) r (by simpa using hl) (Nat.lt_succ_of_le (r.length_le hl)) (Or.inr hst)
  refine ⟨h', ?_, by simpa using r'.shows⟩
  unfold LHeap.remove
  rw [ring_first (r.ring hl)]
  simp only [Option.bind_eq_bind, Option.bind_some, e, Nat.zero_add]

/-- `remove` with an element of the list itself that is not the last one reads this element after it has destroyed it. -/
theorem C86_list_remove_violated {h : LHeap V} {A : Abs V} {l : Nat} {P Q : List (Nat × V)} {x : Nat × V} (eq : V → V → Bool) (r : Rel h A) (hl : A.lists l = some (P ++ x :: Q))
    (hQ : Q ≠ []) (hx : eq x.2 x.2 = true) : h.remove eq l x.1 = none := by
  have main : ∀ (R : List (Nat × V)) (n : Nat) {h : LHeap V} {A : Abs V} {P : List (Nat × V)} (c : Nat) (_ : Rel h A) (_ : A.lists l = some (P ++ (R ++ x :: Q))),
      h.removeLoop eq x.1 n l (headId (R ++ x :: Q) l) c = none := by
    intro R
    induction R with
    | nil =>
      intro n h A P c r hl
      cases n with
      | zero => rfl
      | succ n =>
        obtain ⟨hnx, hv, hxl⟩ := next_of_split r hl
        obtain ⟨pv, nx, hc⟩ := cell_of_val hv
        simp only [LHeap.nextOf, hc, Option.map_some, Option.some.injEq] at hnx
        obtain ⟨h1, e1, r1⟩ := eraseOne_op r hl
        change h.removeLoop eq x.1 (n + 1) l x.1 c = none
        rw [LHeap.removeLoop, if_neg hxl, hc, hv]
        simp only [if_pos hx, e1, Option.bind_eq_bind, Option.bind_some, hnx]
        cases n with
        | zero => rfl
        | succ n =>
          obtain ⟨y, Q', rfl⟩ := List.exists_cons_of_ne_nil hQ
          have hgone : ∀ v, h1.valOf x.1 ≠ some (some v) := by
            intro v hv1
            rcases r1.nodeOf hv1 with ⟨k, ys, hk, hm⟩ | hm
            · have hi : x.1 ∈ ids ys := mem_ids.2 ⟨v, hm⟩
              by_cases hkl : k = l
              · subst hkl
                simp only [Abs.set, Abs.use, upd_same, Option.some.injEq] at hk
                subst hk
                have := r.nodup hl
                rw [List.nil_append, ids, List.map_append, List.map_cons] at this
                have h3 := List.nodup_append.1 this
                rw [ids, List.map_append] at hi
                rcases List.mem_append.1 hi with hi | hi
                · exact h3.2.2 _ hi _ (by simp) rfl
                · exact (List.nodup_cons.1 h3.2.1).1 hi
              · simp only [Abs.set, Abs.use, upd_other _ _ hkl] at hk
                exact hkl (r.apart hk hl hi (by simp [ids]))
            · cases hm
          have hy := (next_of_split r1 (s := l) (P := P) (x := y) (Q := Q') (by simp [Abs.set, Abs.use, upd_same])).2
          obtain ⟨pv', nx', hc'⟩ := cell_of_val hy.1
          change h1.removeLoop eq x.1 (n + 1) l y.1 _ = none
          rw [LHeap.removeLoop, if_neg hy.2, hc']
          cases hw : h1.valOf x.1 with
          | none => rfl
          | some w =>
            cases w with
            | none => rfl
            | some v => exact absurd hw (hgone v)
    | cons z R ih =>
      intro n h A P c r hl
      cases n with
      | zero => rfl
      | succ n =>
        obtain ⟨hnx, hv, hzl⟩ := next_of_split r hl
        obtain ⟨pv, nx, hc⟩ := cell_of_val hv
        simp only [LHeap.nextOf, hc, Option.map_some, Option.some.injEq] at hnx
        have hvx : h.valOf x.1 = some (some x.2) := r.vals hl (by simp)
        change h.removeLoop eq x.1 (n + 1) l z.1 c = none
        rw [LHeap.removeLoop, if_neg hzl, hc, hvx]
        simp only [hnx]
        by_cases hp : eq x.2 z.2 = true
        · obtain ⟨h1, e1, r1⟩ := eraseOne_op r hl
          simp only [if_pos hp, e1, Option.bind_eq_bind, Option.bind_some]
          exact ih n (P := P) _ r1 (by simp [Abs.set, Abs.use, upd_same])
        · rw [if_neg hp]
          exact ih n (P := P ++ [z]) _ r (by rw [hl]; simp)
  unfold LHeap.remove
  rw [ring_first (r.ring hl)]
  exact main P _ (P := []) 0 r hl

/-! ## Concrete cases -/

/-- The list `1, 2, 1, 3, 1`, at address 0, and the list `1`, at address 6. -/
def ones : List (LOp Nat) :=
  [.new, .pushBack 0 1 false, .pushBack 0 2 false, .pushBack 0 1 false, .pushBack 0 3 false, .pushBack 0 1 false, .new, .pushBack 6 1 false]

/-- The hypotheses hold for the last element, for the element of the other list and, those of the violation, for the first element. -/
example : ∃ h A, Rel h A ∧ A.lists 0 = some ([(1, 1), (2, 2), (3, 1), (4, 3)] ++ (5, 1) :: []) ∧ A.lists 6 = some ([] ++ (7, 1) :: []) ∧
    A.lists 0 = some ([] ++ (1, 1) :: [(2, 2), (3, 1), (4, 3), (5, (1 : Nat))]) := by
  have hp : PreHist Abs.spec Abs.pre (Abs.start Nat) ones := by
    refine ⟨?_, ?_, ?_, ?_, ?_, ?_, ?_, ?_, trivial⟩ <;> simp [Abs.pre, Abs.Has, Abs.spec, Abs.start, Abs.set, Abs.use, Abs.at', Abs.made, upd, number]
  obtain ⟨h, _, r⟩ := runHist_refines (R := Rel) lstep_refines ones (LHeap.start Nat) (Abs.start Nat) (rel_start Nat) hp
  exact ⟨h, _, r, by rfl, by rfl, by rfl⟩

/-- The last element of the list, the element of the other list, and an element in the middle. -/
example : (runHist lstep (LHeap.start Nat) ones).map (fun p => ((p.1.remove Nat.beq 0 5).map fun q => (q.1.forward 0, q.2), (p.1.remove Nat.beq 0 7).map fun q => (q.1.forward 0, q.2),
    (p.1.remove Nat.beq 0 3).map fun q => (q.1.forward 0, q.2))) = some (some (some [2, 3], 3), some (some [2, 3], 3), none) := by rfl

end Verif.Lists
