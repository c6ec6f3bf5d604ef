import Verif.Lists.BidirProps
import Verif.Lists.ForwardProps

/-!
# Linked lists: an element stays where it is until it is erased (property C75)

The position of an element of a linked list is the address of its node. What is promised: no operation, on whatever list, moves or changes an
element that it does not erase or assign to; splicing, swapping and moving lists takes the nodes along. `LOp.ends` and `FOp.ends` say
which elements an operation may erase or assign to, in terms of the lists as sequences.
-/

namespace Verif.Lists

open Verif

variable {V : Type}

/-- The elements that the operation erases or assigns to. -/
def LOp.ends (A : Abs V) (x : Nat × V) : LOp V → Prop
  | .drop l | .clear l | .assign l _ _ _ => x ∈ A.at' l
  | .copyAssign l src _ _ => l ≠ src ∧ x ∈ A.at' l
  | .popBack l => (A.at' l).getLast? = some x
  | .popFront l => (A.at' l).head? = some x
  | .erase l first last => x ∈ within first last (A.at' l)
  | .eraseIf l p => x ∈ A.at' l ∧ p x.2 = true
  | _ => False

@[inherit_doc LOp.ends]
def FOp.ends (A : Abs V) (x : Nat × V) : FOp V → Prop
  | .drop l | .clear l | .assign l _ _ _ => x ∈ A.at' l
  | .copyAssign l src _ _ => l ≠ src ∧ x ∈ A.at' l
  | .popFront l => (A.at' l).head? = some x
  | .eraseAfter l pos => (behind l pos (A.at' l)).head? = some x
  | .eraseRange l pos last => x ∈ behind l pos (A.at' l) ∧ match last with
    | none => True
    | some q => x ∉ fromPos q (behind l pos (A.at' l))
  | _ => False

/-- Some list has the node with that value. -/
def Abs.Holds (A : Abs V) (x : Nat × V) : Prop := ∃ l xs, A.lists l = some xs ∧ x ∈ xs

theorem Abs.holds_at {A : Abs V} {l : Nat} {x : Nat × V} (h : x ∈ A.at' l) : A.Holds x := by
  unfold Abs.at' at h
  cases e : A.lists l with
  | none => rw [e] at h; simp at h
  | some xs => rw [e] at h; exact ⟨l, xs, e, h⟩

theorem Abs.holds_set {A : Abs V} {l : Nat} {ys : List (Nat × V)} {x : Nat × V} (h : A.Holds x) (hk : x ∈ A.at' l → x ∈ ys) :
    (A.set l ys).Holds x := by
  obtain ⟨k, xs, e, hx⟩ := h
  by_cases hkl : k = l
  · subst hkl
    exact ⟨k, ys, upd_same _ _ _, hk (by simp only [Abs.at', e, Option.getD_some]; exact hx)⟩
  · exact ⟨k, xs, by simp only [Abs.set]; rw [upd_other _ _ hkl]; exact e, hx⟩

theorem Abs.holds_here {A : Abs V} {l : Nat} {ys : List (Nat × V)} {x : Nat × V} (h : x ∈ ys) : (A.set l ys).Holds x :=
  ⟨l, ys, upd_same _ _ _, h⟩

@[simp] theorem Abs.holds_use {A : Abs V} {n : Nat} {x : Nat × V} : (A.use n).Holds x ↔ A.Holds x := Iff.rfl

theorem Abs.at_set_same {A : Abs V} {l : Nat} {ys : List (Nat × V)} : (A.set l ys).at' l = ys := by
  simp only [Abs.at', Abs.set, upd_same, Option.getD_some]

theorem Abs.at_set_other {A : Abs V} {l k : Nat} {ys : List (Nat × V)} (h : k ≠ l) : (A.set l ys).at' k = A.at' k := by
  simp only [Abs.at', Abs.set]; rw [upd_other _ _ h]

theorem Abs.holds_new {A : Abs V} {ys : List (Nat × V)} {x : Nat × V} (hf : A.lists A.next = none) (h : A.Holds x) : (A.set A.next ys).Holds x :=
  Abs.holds_set h (by simp [Abs.at', hf])

theorem mem_before_from {p : Nat} {xs : List (Nat × V)} {x : Nat × V} (h : x ∈ xs) : x ∈ before p xs ∨ x ∈ fromPos p xs := by
  rw [← List.mem_append, before_from]; exact h

theorem upTo_append {l p : Nat} {xs : List (Nat × V)} : upTo l p xs ++ behind l p xs = xs := by
  unfold upTo behind
  split
  · rfl
  · rw [List.append_assoc, show (fromPos p xs).take 1 ++ (fromPos p xs).tail = fromPos p xs by cases fromPos p xs <;> rfl, before_from]

theorem mem_upTo_behind {l p : Nat} {xs : List (Nat × V)} {x : Nat × V} (h : x ∈ xs) : x ∈ upTo l p xs ∨ x ∈ behind l p xs := by
  rw [← List.mem_append, upTo_append]; exact h

/-- One operation on doubly linked lists. -/
theorem Abs.holds_spec {A : Abs V} {x : Nat × V} (hf : A.lists A.next = none) (h : A.Holds x) (op : LOp V) (he : ¬ op.ends A x) :
    (A.spec op).1.Holds x := by
  have new : ∀ (fail : Option Nat) (vs : List V), (if made vs.length fail < vs.length then (A.use 1, true)
      else ((A.set A.next (number (A.next + 1) vs)).use (1 + vs.length), false)).1.Holds x := by
    intro fail vs
    split
    · exact h
    · exact Abs.holds_new hf h
  have splice : ∀ (l pos o : Nat) (mid rest : List (Nat × V)), (∀ y, y ∈ A.at' o → y ∈ mid ∨ y ∈ rest) →
      ((A.set o rest).set l (before pos ((A.set o rest).at' l) ++ mid ++ fromPos pos ((A.set o rest).at' l))).Holds x := by
    intro l pos o mid rest hs
    by_cases hm : x ∈ mid
    · exact Abs.holds_here (by simp [hm])
    · refine Abs.holds_set (Abs.holds_set h fun hx => (hs x hx).resolve_left hm) fun hx => ?_
      rcases mem_before_from (p := pos) hx with q | q <;> simp [q]
  cases op with
  | new => exact Abs.holds_new hf h
  | newFrom vs fail => exact new fail vs
  | copyOf src fail => exact new fail _
  | moveOf src =>
    simp only [Abs.spec, Abs.holds_use]
    by_cases hx : x ∈ A.at' src
    · by_cases hs : src = A.next
      · subst hs; simp [Abs.at', hf] at hx
      · refine ⟨A.next, A.at' src, ?_, hx⟩
        simp only [Abs.set]
        rw [upd_other _ _ (Ne.symm hs), upd_same]
    · refine Abs.holds_set (Abs.holds_new hf h) fun hq => ?_
      by_cases hs : src = A.next
      · subst hs; rw [Abs.at_set_same] at hq; exact absurd hq hx
      · rw [Abs.at_set_other hs] at hq; exact absurd hq hx
  | drop l =>
    obtain ⟨k, xs, e, hx⟩ := h
    have hk : k ≠ l := by
      rintro rfl
      exact he (by simp only [LOp.ends, Abs.at', e, Option.getD_some]; exact hx)
    exact ⟨k, xs, by simp only [Abs.spec]; rw [upd_other _ _ hk]; exact e, hx⟩
  | pushBack l v fail =>
    simp only [Abs.spec]
    split
    · exact h
    · exact Abs.holds_set h fun hx => List.mem_append_left _ hx
  | pushFront l v fail =>
    simp only [Abs.spec]
    split
    · exact h
    · exact Abs.holds_set h fun hx => List.mem_cons_of_mem _ hx
  | popBack l =>
    refine Abs.holds_set h fun hx => ?_
    simp only [LOp.ends] at he
    have hne : A.at' l ≠ [] := by rintro e; rw [e] at hx; cases hx
    rw [← List.dropLast_concat_getLast hne, List.mem_append] at hx
    rcases hx with hx | hx
    · exact hx
    · rw [List.mem_singleton] at hx
      exact absurd (by rw [List.getLast?_eq_some_getLast hne, hx]) he
  | popFront l =>
    refine Abs.holds_set (A := A) h fun hx => ?_
    simp only [LOp.ends] at he
    cases e : A.at' l with
    | nil => rw [e] at hx; cases hx
    | cons y ys =>
      rw [e] at hx he
      rcases List.mem_cons.1 hx with hx | hx
      · subst hx; exact absurd rfl he
      · exact hx
  | append l vs fail => exact Abs.holds_set h fun hx => List.mem_append_left _ hx
  | insert l pos vs fail =>
    simp only [Abs.spec]
    split
    · exact h
    · refine Abs.holds_set h fun hx => ?_
      rcases mem_before_from (p := pos) hx with q | q <;> simp [q]
  | erase l first last =>
    refine Abs.holds_set (A := A) h fun hx => ?_
    simp only [LOp.ends] at he
    unfold outside
    unfold within at he
    rcases mem_before_from (p := first) hx with q | q
    · exact List.mem_append_left _ q
    · exact List.mem_append_right _ ((mem_before_from (p := last) q).resolve_left he)
  | eraseIf l p =>
    refine Abs.holds_set (A := A) h fun hx => ?_
    simp only [LOp.ends, not_and] at he
    exact List.mem_filter.2 ⟨hx, by simp [he hx]⟩
  | clear l => exact Abs.holds_set h fun hx => absurd hx he
  | splice l pos o first last =>
    refine splice l pos o _ _ fun y hy => ?_
    unfold within outside
    rcases mem_before_from (p := first) hy with q | q
    · exact .inr (List.mem_append_left _ q)
    · rcases mem_before_from (p := last) q with q | q
      · exact .inl q
      · exact .inr (List.mem_append_right _ q)
  | spliceAll l pos o => exact splice l pos o _ _ fun y hy => .inl hy
  | spliceOne l pos o it =>
    refine splice l pos o _ _ fun y hy => ?_
    by_cases hi : y.1 = it
    · exact .inl (List.mem_filter.2 ⟨hy, by simp [hi]⟩)
    · exact .inr (List.mem_filter.2 ⟨hy, by simp [hi]⟩)
  | swap a b | moveAssign a b =>
    simp only [Abs.spec]
    by_cases hab : a = b
    · subst hab
      exact Abs.holds_set (Abs.holds_set h fun hx => hx) fun hx => by rwa [Abs.at_set_same] at hx
    · by_cases ha : x ∈ A.at' a
      · exact Abs.holds_here ha
      · by_cases hb : x ∈ A.at' b
        · refine ⟨a, A.at' b, ?_, hb⟩
          simp only [Abs.set]
          rw [upd_other _ _ hab, upd_same]
        · exact Abs.holds_set (Abs.holds_set h fun hx => absurd hx ha) fun hx => by
            rw [Abs.at_set_other (Ne.symm hab)] at hx; exact absurd hx hb
  | assign l vs left fail =>
    simp only [Abs.spec, Abs.assignTo]
    split
    · exact Abs.holds_set h fun hx => absurd hx he
    · exact Abs.holds_set (A := A) h fun hx => absurd hx he
  | copyAssign l src left fail =>
    simp only [Abs.spec]
    simp only [LOp.ends, not_and] at he
    split
    · exact h
    · rename_i hls
      simp only [Abs.assignTo]
      split
      · exact Abs.holds_set h fun hx => absurd hx (he hls)
      · exact Abs.holds_set (A := A) h fun hx => absurd hx (he hls)

/-- One operation on singly linked lists. -/
theorem Abs.holds_fspec {A : Abs V} {x : Nat × V} (hf : A.lists A.next = none) (h : A.Holds x) (op : FOp V) (hp : A.fpre op)
    (he : ¬ op.ends A x) : (A.fspec op).1.Holds x := by
  have new : ∀ (fail : Option Nat) (vs : List V), (if made vs.length fail < vs.length then (A.use 1, true)
      else ((A.set A.next (number (A.next + 1) vs)).use (1 + vs.length), false)).1.Holds x := by
    intro fail vs
    split
    · exact h
    · exact Abs.holds_new hf h
  cases op with
  | new => exact Abs.holds_new hf h
  | newFrom vs fail => exact new fail vs
  | copyOf src fail => exact new fail _
  | moveOf src =>
    exact Abs.holds_spec hf h (.moveOf src) (by simp [LOp.ends])
  | drop l => exact Abs.holds_spec hf h (.drop l) he
  | pushFront l v fail =>
    simp only [Abs.fspec]
    split
    · exact h
    · exact Abs.holds_set h fun hx => List.mem_cons_of_mem _ hx
  | popFront l =>
    refine Abs.holds_set (A := A) h fun hx => ?_
    simp only [FOp.ends] at he
    cases e : A.at' l with
    | nil => rw [e] at hx; cases hx
    | cons y ys =>
      rw [e] at hx he
      rcases List.mem_cons.1 hx with hx | hx
      · subst hx; exact absurd rfl he
      · exact hx
  | insertAfter l pos v fail =>
    simp only [Abs.fspec]
    split
    · exact h
    · refine Abs.holds_set h fun hx => ?_
      rcases mem_upTo_behind (l := l) (p := pos) hx with q | q <;> simp [q]
  | appendAfter l pos vs fail =>
    refine Abs.holds_set (A := A) h fun hx => ?_
    rcases mem_upTo_behind (l := l) (p := pos) hx with q | q <;> simp [q]
  | eraseAfter l pos =>
    refine Abs.holds_set (A := A) h fun hx => ?_
    simp only [FOp.ends] at he
    rcases mem_upTo_behind (l := l) (p := pos) hx with q | q
    · simp [q]
    · cases e : behind l pos (A.at' l) with
      | nil => rw [e] at q; cases q
      | cons y ys =>
        rw [e] at q he
        rcases List.mem_cons.1 q with q | q
        · subst q; exact absurd rfl he
        · simp [q]
  | eraseRange l pos last =>
    refine Abs.holds_set (A := A) h fun hx => ?_
    simp only [FOp.ends, not_and] at he
    rcases mem_upTo_behind (l := l) (p := pos) hx with q | q
    · simp [q]
    · have he := he q
      cases last with
      | none => exact absurd trivial he
      | some p => exact List.mem_append_right _ (Classical.not_not.1 he)
  | spliceAfter l pos o bf bl =>
    obtain ⟨_, _, hlo, _, hbf, hbl, hle⟩ := hp
    simp only [Abs.fspec]
    have hpre : upTo o bf (A.at' o) = (upTo o bl (A.at' o)).take (upTo o bf (A.at' o)).length := by
      have e1 := upTo_append (l := o) (p := bf) (xs := A.at' o)
      have e2 := upTo_append (l := o) (p := bl) (xs := A.at' o)
      have := congrArg (List.take (upTo o bf (A.at' o)).length) (e1.trans e2.symm)
      rw [List.take_left, List.take_append_of_le_length hle] at this
      exact this
    by_cases hm : x ∈ (upTo o bl (A.at' o)).drop (upTo o bf (A.at' o)).length
    · exact Abs.holds_here (by simp [hm])
    · refine Abs.holds_set (Abs.holds_set h fun hx => ?_) fun hx => ?_
      · rcases mem_upTo_behind (l := o) (p := bl) hx with q | q
        · rw [← List.take_append_drop (upTo o bf (A.at' o)).length (upTo o bl (A.at' o)), List.mem_append] at q
          rw [← hpre] at q
          exact List.mem_append_left _ (q.resolve_right hm)
        · exact List.mem_append_right _ q
      · rw [Abs.at_set_other hlo] at hx
        rcases mem_upTo_behind (l := l) (p := pos) hx with q | q <;> simp [q]
  | clear l => exact Abs.holds_set h fun hx => absurd hx he
  | swap a b => exact Abs.holds_spec hf h (.swap a b) (by simp [LOp.ends])
  | moveAssign a b => exact Abs.holds_spec hf h (.swap a b) (by simp [LOp.ends])
  | assign l vs left fail =>
    simp only [Abs.fspec, Abs.fassign]
    split
    · exact Abs.holds_set h fun hx => absurd hx he
    · exact Abs.holds_set (A := A) h fun hx => absurd hx he
  | copyAssign l src left fail =>
    simp only [Abs.fspec]
    simp only [FOp.ends, not_and] at he
    split
    · exact h
    · rename_i hls
      simp only [Abs.fassign]
      split
      · exact Abs.holds_set h fun hx => absurd hx (he hls)
      · exact Abs.holds_set (A := A) h fun hx => absurd hx (he hls)

theorem RelD.next_none {h : LHeap V} {A : Abs V} {D} (r : RelD h A D) : A.lists A.next = none := by
  cases e : A.lists A.next with
  | none => rfl
  | some xs =>
    have h1 := r.sent e
    rw [r.fresh _ (by rw [r.same])] at h1
    cases h1

theorem FRel.next_none {h : FHeap V} {A : Abs V} (r : FRel h A) : A.lists A.next = none := by
  cases e : A.lists A.next with
  | none => rfl
  | some xs =>
    have h1 := r.sent.2 ⟨xs, e⟩
    rw [r.fresh _ (by rw [r.same])] at h1
    cases h1

/-- C75, doubly linked lists. From any memory that holds any lists, through any history of operations on any of them (with any pattern of
exceptions, within what C31 asks): the address of an element refers to that element as long as no operation erases it or assigns to it. -/
theorem C75_list_history (ops : List (LOp V)) {h : LHeap V} {A : Abs V} (r : Rel h A) {p : Nat} {v : V} (hv : h.valOf p = some (some v))
    (hp : PreHist Abs.spec (fun A op => A.pre op ∧ ¬ op.ends A (p, v)) A ops) :
    ∃ h' thrown, runHist lstep h ops = some (h', thrown) ∧ h'.valOf p = some (some v) := by
  have h0 : A.Holds (p, v) := (r.nodeOf hv).resolve_right (by simp)
  obtain ⟨h', e, r', k, xs, hk, hx⟩ := runHist_refines (R := fun (h : LHeap V) A => Rel h A ∧ A.Holds (p, v))
    (step := lstep) (spec := Abs.spec) (pre := fun A op => A.pre op ∧ ¬ op.ends A (p, v))
    (by
      rintro s a op ⟨r1, h1⟩ ⟨p1, p2⟩
      obtain ⟨s', e1, r2⟩ := lstep_refines s a op r1 p1
      exact ⟨s', e1, r2, Abs.holds_spec r1.next_none h1 op p2⟩)
    ops h A ⟨r, h0⟩ hp
  exact ⟨h', _, e, r'.vals hk hx⟩

/-- C75, singly linked lists. -/
theorem C75_forward_history (ops : List (FOp V)) {h : FHeap V} {A : Abs V} (r : FRel h A) {p : Nat} {v : V} (hv : h.valOf p = some (some v))
    (hp : PreHist Abs.fspec (fun A op => A.fpre op ∧ ¬ op.ends A (p, v)) A ops) :
    ∃ h' thrown, runHist fstep h ops = some (h', thrown) ∧ h'.valOf p = some (some v) := by
  have h0 : A.Holds (p, v) := r.node.1 hv
  obtain ⟨h', e, r', k, xs, hk, hx⟩ := runHist_refines (R := fun (h : FHeap V) A => FRel h A ∧ A.Holds (p, v))
    (step := fstep) (spec := Abs.fspec) (pre := fun A op => A.fpre op ∧ ¬ op.ends A (p, v))
    (by
      rintro s a op ⟨r1, h1⟩ ⟨p1, p2⟩
      obtain ⟨s', e1, r2⟩ := fstep_refines s a op r1 p1
      exact ⟨s', e1, r2, Abs.holds_fspec r1.next_none h1 op p1 p2⟩)
    ops h A ⟨r, h0⟩ hp
  exact ⟨h', _, e, r'.node.2 ⟨k, xs, hk, hx⟩⟩

/-- The hypotheses of `C75_list_history` are met by the history of the examples of C31 from its fourth operation on, for the first element
(10, at address 2): other elements are inserted around it, it is spliced into another list with its neighbours, the lists are swapped and
moved, others are erased. -/
example : ∃ h A, Rel h A ∧ h.valOf 2 = some (some 10) ∧ PreHist Abs.spec (fun A op => A.pre op ∧ ¬ op.ends A (2, 10)) A (demo.drop 3) := by
  obtain ⟨h, e, r⟩ := runHist_refines (R := Rel) lstep_refines (demo.take 3) (LHeap.start Nat) (Abs.start Nat) (rel_start Nat) (by
    refine ⟨?_, ?_, ?_, trivial⟩ <;> simp [Abs.pre, Abs.Has, Abs.spec, Abs.start, Abs.set, Abs.use, Abs.at', upd])
  refine ⟨h, _, r, r.vals (k := 0) (xs := [(2, 10)]) rfl (by simp), ?_⟩
  refine ⟨?_, ?_, ?_, ?_, ?_, ?_, ?_, ?_, ?_, ?_, ?_, trivial⟩ <;>
    simp [Abs.pre, Abs.Has, Abs.spec, Abs.start, Abs.set, Abs.use, Abs.at', Abs.made, upd, ValidPos, ValidRange, specHist, demo, LOp.ends,
      before, fromPos, within, outside, ids, number, List.takeWhile, List.dropWhile]

example : (runHist lstep (LHeap.start Nat) demo).map (fun p => p.1.valOf 2) = some (some (some 10)) := rfl

/-- The hypotheses of `C75_forward_history` are met by the history of the examples of C32 from its third operation on, for the element 9 at
address 4, which is spliced into another list. -/
example : ∃ h A, FRel h A ∧ h.valOf 4 = some (some 9) ∧ PreHist Abs.fspec (fun A op => A.fpre op ∧ ¬ op.ends A (4, 9)) A (fdemo.drop 2) := by
  obtain ⟨h, e, r⟩ := runHist_refines (R := FRel) fstep_refines (fdemo.take 2) (FHeap.start Nat) (Abs.start Nat) (frel_start Nat) (by
    refine ⟨?_, ?_, trivial⟩ <;> simp [Abs.fpre, Abs.Has, Abs.fspec, Abs.start, Abs.set, Abs.use, Abs.at', Abs.made, upd])
  refine ⟨h, _, r, r.node.2 ⟨1, [(2, 7), (3, 8), (4, 9)], rfl, by simp⟩, ?_⟩
  refine ⟨?_, ?_, ?_, ?_, ?_, ?_, ?_, ?_, ?_, ?_, ?_, trivial⟩ <;>
    simp [Abs.fpre, Abs.Has, Abs.fspec, Abs.fassign, Abs.start, Abs.set, Abs.use, Abs.at', Abs.made, upd, ValidPos, specHist, fdemo, FOp.ends,
      before, fromPos, upTo, behind, ids, number, List.takeWhile, List.dropWhile]

end Verif.Lists
