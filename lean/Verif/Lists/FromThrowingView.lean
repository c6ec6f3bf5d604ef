import Verif.Lists.SizedProps
import Verif.Lists.ForwardProps
import Verif.Containers.FromThrowingView

/-!
# Linked lists filled from views whose functions throw

`append` to a doubly linked list, `append_after` to a singly linked list, and construction of lists, from a view that calls functions of the user (`filter`,
`transform`, ...). The view is gone through once; a function can throw before, between and behind the elements, an allocation and a conversion before any of them.
-/

namespace Verif.Lists

open Verif Verif.Views Verif.Views.Calling Verif.Containers

variable {V τ σ ρ S : Type}

/-! ## Model -/

/-- The loop of `copy_or_relocate_from` (source/containers/algorithms/copy_or_relocate_from.cpp 45-48) with a function `push` that allocates a node, and then
dereferences the iterator and converts to construct the element in it (source/containers/linked_list_helper.cpp 42-53). `noMem i`: the allocation of the node `i`
throws. Simplification: the state of the functions after the loop is not part of the result, since nothing is called any more. -/
def feedC (push : S → V → Bool → Out S) (r : RngC τ σ ρ) (conv : ρ → Item V) (noMem : Nat → Bool) : Nat → Nat → S → σ → τ → Out S
  | 0, _, _, _, _ => .ub
  | f + 1, i, q, s, t =>
    match r.atEnd s t with
    | .ub => .ub
    | .exn _ => .exn q
    | .ok true _ => .ok q
    | .ok false t =>
      if noMem i then .exn q
      else
        match r.deref s t with
        | .ub => .ub
        | .exn _ => .exn q
        | .ok x t =>
          match push q (conv x).val (conv x).throws with
          | .ub => .ub
          | .exn q => .exn q
          | .ok q =>
            match r.next s t with
            | .ub => .ub
            | .exn _ => .exn q
            | .ok s t => feedC push r conv noMem f (i + 1) q s t

/-- The call of `begin` (source/containers/algorithms/copy_or_relocate_from.cpp 38-39) and the loop. -/
def feedViewC (push : S → V → Bool → Out S) (D : Nat) (p : PipeC τ ρ) (conv : ρ → Item V) (noMem : Nat → Bool) (q : S) (t : τ) : Out S :=
  match p.build D t with
  | .ub => .ub
  | .exn _ => .exn q
  | .ok B t => feedC push B.ops conv noMem (D + 1) 0 q B.first t

/-- `append` of a view (source/containers/append.cpp 74-82) to a doubly linked list, also `assign_to_empty` (source/containers/assign_to_empty.cpp 83-86). -/
def LHeap.appendViewC (h : LHeap V) (l : Nat) (D : Nat) (p : PipeC τ ρ) (conv : ρ → Item V) (noMem : Nat → Bool) (t : τ) : Out (LHeap V) :=
  feedViewC (fun h v fail => LHeap.pushBack h l v fail) D p conv noMem h t

/-- Construction of a doubly linked list from a view (source/containers/bidirectional_linked_list.cpp 67-69), as `LHeap.makeFrom`. -/
def LHeap.makeFromViewC (h : LHeap V) (D : Nat) (p : PipeC τ ρ) (conv : ρ → Item V) (noMem : Nat → Bool) (t : τ) : Out (LHeap V) :=
  let l := h.next
  match h.makeList.appendViewC l D p conv noMem t with
  | .ok h => .ok h
  | .exn h => .exn { h with cell := upd h.cell l none }
  | .ub => .ub

/-- `append` of a view to `containers::list`, which counts its elements (source/containers/append.cpp 74-82, source/containers/std/list.cpp 94-98). -/
def SHeap.appendViewC (s : SHeap V) (l : Nat) (D : Nat) (p : PipeC τ ρ) (conv : ρ → Item V) (noMem : Nat → Bool) (t : τ) : Out (SHeap V) :=
  feedViewC (fun s v fail => SHeap.pushBack s l v fail) D p conv noMem s t

/-- Construction of `containers::list` from a view (source/containers/std/list.cpp 60-62), as `SHeap.makeFrom`: when it throws, the member is destroyed. -/
def SHeap.makeFromViewC (s : SHeap V) (D : Nat) (p : PipeC τ ρ) (conv : ρ → Item V) (noMem : Nat → Bool) (t : τ) : Out (SHeap V) :=
  let l := s.h.next
  match s.makeList.appendViewC l D p conv noMem t with
  | .ok s => .ok s
  | .exn s => match s.dropList l with
    | some s => .exn s
    | none => .ub
  | .ub => .ub

/-- `insert` of a view into a doubly linked list (source/containers/insert.cpp 110-113), as `LHeap.insert`: a temporary list is built, spliced and destroyed. -/
def LHeap.insertViewC (h : LHeap V) (position : Nat) (D : Nat) (p : PipeC τ ρ) (conv : ρ → Item V) (noMem : Nat → Bool) (t : τ) : Out (LHeap V) :=
  let l := h.next
  (h.makeFromViewC D p conv noMem t).andThen fun h => ptr do
    let h ← h.spliceAll position l
    h.dropList l

/-- `insert` of a view into `containers::list` (source/containers/insert.cpp 110-113), as `SHeap.insert`. -/
def SHeap.insertViewC (s : SHeap V) (l position : Nat) (D : Nat) (p : PipeC τ ρ) (conv : ρ → Item V) (noMem : Nat → Bool) (t : τ) : Out (SHeap V) :=
  let temporary := s.h.next
  (s.makeFromViewC D p conv noMem t).andThen fun s => ptr do
    let s ← s.spliceAll l position temporary
    s.dropList temporary

/-- `lazy_insert_after`, and the position of the new node, which becomes `before_position` (source/containers/append_after.cpp 25-27). -/
def FHeap.pushAfter (q : FHeap V × Nat) (v : V) (fail : Bool) : Out (FHeap V × Nat) :=
  match q.1.insertAfter q.2 v fail with
  | .ok h => .ok (h, q.1.next)
  | .exn h => .exn (h, q.2)
  | .ub => .ub

/-- `append_after` of a view (source/containers/append_after.cpp 23-28) to a singly linked list, also `assign_to_empty`
(source/containers/assign_to_empty.cpp 87-90) starting at `before_begin()`. -/
def FHeap.appendAfterViewC (h : FHeap V) (before : Nat) (D : Nat) (p : PipeC τ ρ) (conv : ρ → Item V) (noMem : Nat → Bool) (t : τ) : Out (FHeap V) :=
  match feedViewC FHeap.pushAfter D p conv noMem (h, before) t with
  | .ok q => .ok q.1
  | .exn q => .exn q.1
  | .ub => .ub

/-- Construction of a singly linked list from a view (source/containers/forward_linked_list.cpp 43-45), as `FHeap.makeFrom`. -/
def FHeap.makeFromViewC (h : FHeap V) (D : Nat) (p : PipeC τ ρ) (conv : ρ → Item V) (noMem : Nat → Bool) (t : τ) : Out (FHeap V) :=
  let l := h.next
  match h.makeList.appendAfterViewC l D p conv noMem t with
  | .ok h => .ok h
  | .exn h => .exn { h with cell := upd h.cell l none }
  | .ub => .ub

/-! ## Specification -/

/-- An operation that takes `xs` one after the other took the first `n` of them and then threw, or all. It throws only if a function may throw, or the
conversion of the next element or the allocation for it does; no conversion of an element that was taken throws, and no allocation for it. So without functions that
throw it stops exactly at the first conversion or allocation that does. -/
structure Took (quiet : Prop) (conv : ρ → Item V) (noMem : Nat → Bool) (xs : List ρ) (n : Nat) (thrown : Bool) : Prop where
  le : n ≤ xs.length
  all : thrown = false → n = xs.length
  cause : thrown = true → ¬ quiet ∨ (∃ x, xs[n]? = some x ∧ (conv x).throws = true) ∨ (n < xs.length ∧ noMem n = true)
  good : ∀ x ∈ xs.take n, (conv x).throws = false
  mem : ∀ i, i < n → noMem i = false

/-- A conversion that throws makes the operation throw. -/
theorem Took.conv_throws {quiet : Prop} {conv : ρ → Item V} {noMem : Nat → Bool} {xs : List ρ} {n : Nat} {thrown : Bool} (h : Took quiet conv noMem xs n thrown) {x : ρ}
    (hx : x ∈ xs) (ht : (conv x).throws = true) : thrown = true := by
  cases e : thrown with
  | true => rfl
  | false =>
    have := h.good x (by rw [h.all e, List.take_length]; exact hx)
    rw [ht] at this; cases this

/-- So does an allocation. -/
theorem Took.alloc_throws {quiet : Prop} {conv : ρ → Item V} {noMem : Nat → Bool} {xs : List ρ} {n : Nat} {thrown : Bool} (h : Took quiet conv noMem xs n thrown) {i : Nat}
    (hi : i < xs.length) (ht : noMem i = true) : thrown = true := by
  cases e : thrown with
  | true => rfl
  | false =>
    have := h.mem i (by rw [h.all e]; exact hi)
    rw [ht] at this; cases this

/-! ## Proofs -/

section
variable {push : S → V → Bool → Out S} {P : S → List V → Prop} {quiet : Prop} {r : RngC τ σ ρ} {conv : ρ → Item V}

theorem Took.none {noMem : Nat → Bool} {xs : List ρ} (h : ¬ quiet ∨ (∃ x, xs[0]? = some x ∧ (conv x).throws = true) ∨ (0 < xs.length ∧ noMem 0 = true)) :
    Took quiet conv noMem xs 0 true :=
  ⟨Nat.zero_le _, fun e => (by cases e), fun _ => h, fun x hx => (by simp at hx), fun i hi => (by omega)⟩

theorem Took.cons {noMem : Nat → Bool} {x : ρ} {xs : List ρ} {n : Nat} {thrown : Bool} (h : Took quiet conv (fun i => noMem (i + 1)) xs n thrown)
    (hx : (conv x).throws = false) (h0 : noMem 0 = false) : Took quiet conv noMem (x :: xs) (n + 1) thrown where
  le := Nat.succ_le_succ h.le
  all e := by rw [h.all e, List.length_cons]
  cause e := by
    rcases h.cause e with a | ⟨y, hy, b⟩ | ⟨hi, c⟩
    · exact .inl a
    · exact .inr (.inl ⟨y, by simpa using hy, b⟩)
    · exact .inr (.inr ⟨by simpa using hi, c⟩)
  good y hy := by
    rw [List.take_succ_cons] at hy
    rcases List.mem_cons.1 hy with rfl | hy
    · exact hx
    · exact h.good y hy
  mem i hi := by
    cases i with
    | zero => exact h0
    | succ i => exact h.mem i (by omega)

theorem feedC_eq (hexn : ∀ q v, push q v true = .exn q) (hok : ∀ q vs v, P q vs → ∃ q', push q v false = .ok q' ∧ P q' (vs ++ [v])) :
    ∀ {xs : List ρ} {s : σ}, VisitsC quiet r s xs → ∀ {f : Nat}, xs.length < f → ∀ {noMem : Nat → Bool} (i : Nat) {q : S} {vs : List V}, P q vs → ∀ t,
      ∃ n thrown q', feedC push r conv noMem f i q s t = Out.of thrown q' ∧ P q' (vs ++ (xs.take n).map fun x => (conv x).val) ∧
        Took quiet conv (fun j => noMem (i + j)) xs n thrown := by
  intro xs
  induction xs with
  | nil =>
    intro s h f hf noMem i q vs hP t
    obtain ⟨f, rfl⟩ : ∃ g, f = g + 1 := ⟨f - 1, by omega⟩
    have h := h t
    cases e : r.atEnd s t with
    | ub => rw [e] at h; exact h.elim
    | exn t1 =>
      rw [e] at h
      exact ⟨0, true, q, by simp only [feedC, e, Out.of_true], by simpa using hP, .none (.inl h)⟩
    | ok b t1 =>
      rw [e] at h
      have h : b = true := h
      subst h
      exact ⟨0, false, q, by simp only [feedC, e, Out.of_false], by simpa using hP, Nat.le_refl _, fun _ => rfl, fun e => (by cases e), fun x hx => (by simp at hx), fun i hi => (by omega)⟩
  | cons x xs ih =>
    intro s h f hf noMem i q vs hP t
    obtain ⟨h1, h2, s', h3, h4⟩ := h
    obtain ⟨f, rfl⟩ : ∃ g, f = g + 1 := ⟨f - 1, by omega⟩
    have h1 := h1 t
    cases e1 : r.atEnd s t with
    | ub => rw [e1] at h1; exact h1.elim
    | exn t1 =>
      rw [e1] at h1
      exact ⟨0, true, q, by simp only [feedC, e1, Out.of_true], by simpa using hP, .none (.inl h1)⟩
    | ok b t1 =>
      rw [e1] at h1
      have h1 : b = false := h1
      subst h1
      cases hm : noMem i with
      | true => exact ⟨0, true, q, by simp only [feedC, e1, hm, if_true, Out.of_true], by simpa using hP, .none (.inr (.inr ⟨by simp, hm⟩))⟩
      | false =>
        have h2 := h2 t1
        cases e2 : r.deref s t1 with
        | ub => rw [e2] at h2; exact h2.elim
        | exn t2 =>
          rw [e2] at h2
          exact ⟨0, true, q, by simp only [feedC, e1, hm, e2, Bool.false_eq_true, if_false, Out.of_true], by simpa using hP, .none (.inl h2)⟩
        | ok y t2 =>
          rw [e2] at h2
          have h2 : y = x := h2
          subst h2
          cases ht : (conv y).throws with
          | true =>
            exact ⟨0, true, q, by simp only [feedC, e1, hm, e2, ht, hexn, Bool.false_eq_true, if_false, Out.of_true], by simpa using hP,
              .none (.inr (.inl ⟨y, by simp, ht⟩))⟩
          | false =>
            obtain ⟨q1, e3, hP1⟩ := hok q vs (conv y).val hP
            have h3 := h3 t2
            cases e4 : r.next s t2 with
            | ub => rw [e4] at h3; exact h3.elim
            | exn t3 =>
              rw [e4] at h3
              refine ⟨0 + 1, true, q1, by simp only [feedC, e1, hm, e2, ht, e3, e4, Bool.false_eq_true, if_false, Out.of_true], by simpa using hP1, ?_⟩
              exact Took.cons (.none (.inl h3)) ht hm
            | ok s2 t3 =>
              rw [e4] at h3
              have h3 : s2 = s' := h3
              subst h3
              obtain ⟨n, thrown, q2, e5, hP2, tk⟩ := ih h4 (f := f) (by simpa using hf) (noMem := noMem) (i + 1) hP1 t3
              refine ⟨n + 1, thrown, q2, ?_, ?_, ?_⟩
              · simp only [feedC, e1, hm, e2, ht, e3, e4, Bool.false_eq_true, if_false, e5]
              · simpa using hP2
              · refine Took.cons ?_ ht hm
                have : (fun j => noMem (i + (j + 1))) = fun j => noMem (i + 1 + j) := by funext j; congr 1; omega
                rw [this]; exact tk

theorem feedViewC_eq (hexn : ∀ q v, push q v true = .exn q) (hok : ∀ q vs v, P q vs → ∃ q', push q v false = .ok q' ∧ P q' (vs ++ [v]))
    {D : Nat} (p : PipeC τ ρ) (hp : p.Fits D) (noMem : Nat → Bool) {q : S} (hP : P q []) (t : τ) :
    ∃ n thrown q', feedViewC push D p conv noMem q t = Out.of thrown q' ∧ P q' ((p.denote.take n).map fun x => (conv x).val) ∧
      Took p.Quiet conv noMem p.denote n thrown := by
  have h := C116_view p hp t
  unfold feedViewC
  cases e : p.build D t with
  | ub => rw [e] at h; exact h.elim
  | exn t1 =>
    rw [e] at h
    exact ⟨0, true, q, rfl, by simpa using hP, .none (.inl h)⟩
  | ok B t1 =>
    rw [e] at h
    obtain ⟨n, thrown, q', e', hP', tk⟩ := feedC_eq (conv := conv) hexn hok h (Nat.lt_succ_of_le (p.length_le hp)) (noMem := noMem) 0 hP t1
    exact ⟨n, thrown, q', e', by simpa using hP', by simpa using tk⟩

end

theorem number_snoc (A : Abs V) (xs : List (Nat × V)) (vs : List V) (v : V) :
    xs ++ number A.next vs ++ [(A.next + vs.length, v)] = xs ++ number A.next (vs ++ [v]) := by
  rw [number_append, List.append_assoc]; rfl

/-- **C121**, `append` to a doubly linked list: the list holds its elements and behind them the elements of the view that were reached before the exception, all of
them if there is none. All other lists and the positions of all elements are as before, and no node is lost (`Rel` is the invariant of C31, see `RelD.shows`). -/
theorem C121_append {h : LHeap V} {A : Abs V} {l : Nat} {xs} (r : Rel h A) (hl : A.lists l = some xs) {D : Nat} (p : PipeC τ ρ) (hp : p.Fits D)
    (conv : ρ → Item V) (noMem : Nat → Bool) (t : τ) :
    ∃ n thrown h', h.appendViewC l D p conv noMem t = Out.of thrown h' ∧ Took p.Quiet conv noMem p.denote n thrown ∧
      Rel h' ((A.set l (xs ++ number A.next ((p.denote.take n).map fun x => (conv x).val))).use n) := by
  obtain ⟨n, thrown, h', e, hP, tk⟩ := feedViewC_eq (S := LHeap V) (push := fun h v fail => LHeap.pushBack h l v fail) (conv := conv)
    (P := fun h vs => Rel h ((A.set l (xs ++ number A.next vs)).use vs.length)) (fun _ _ => rfl)
    (fun q vs v hq => by
      obtain ⟨q', e, r'⟩ := pushNode_spec (l := l) (xs := xs ++ number A.next vs) hq (by simp [Abs.set, Abs.use]) v
      refine ⟨q', by simp [LHeap.pushBack, e, ptr], ?_⟩
      simp only [Abs.set, Abs.use, upd_upd, number_snoc] at r' ⊢
      simpa [Nat.add_assoc] using r')
    p hp noMem (q := h) (by simpa [number, Abs.set_self hl, Abs.use] using r) t
  refine ⟨n, thrown, h', e, tk, ?_⟩
  have : ((p.denote.take n).map fun x => (conv x).val).length = n := by simp [tk.le]
  simpa only [this] using hP

/-- **C121**, `append` to `containers::list`: also `size()` is right in every list where it was (`SRel` is the invariant of C58). -/
theorem C121_sized_append {s : SHeap V} {A : Abs V} {st : Nat → Bool} {l : Nat} {xs} (r : SRel s A st) (hl : A.lists l = some xs) {D : Nat} (p : PipeC τ ρ) (hp : p.Fits D)
    (conv : ρ → Item V) (noMem : Nat → Bool) (t : τ) :
    ∃ n thrown s', s.appendViewC l D p conv noMem t = Out.of thrown s' ∧ Took p.Quiet conv noMem p.denote n thrown ∧
      SRel s' ((A.set l (xs ++ number A.next ((p.denote.take n).map fun x => (conv x).val))).use n) st := by
  obtain ⟨n, thrown, s', e, hP, tk⟩ := feedViewC_eq (S := SHeap V) (push := fun s v fail => SHeap.pushBack s l v fail) (conv := conv)
    (P := fun s vs => SRel s ((A.set l (xs ++ number A.next vs)).use vs.length) st) (fun _ _ => rfl)
    (fun q vs v hq => by
      obtain ⟨q', e, r'⟩ := pushBack_sz (l := l) (xs := xs ++ number A.next vs) hq (by simp [Abs.set, Abs.use]) v
      refine ⟨q', e, ?_⟩
      simp only [Abs.set, Abs.use, upd_upd, number_snoc] at r' ⊢
      simpa [Nat.add_assoc] using r')
    p hp noMem (q := s) (by simpa [number, Abs.set_self hl, Abs.use] using r) t
  refine ⟨n, thrown, s', e, tk, ?_⟩
  have : ((p.denote.take n).map fun x => (conv x).val).length = n := by simp [tk.le]
  simpa only [this] using hP

/-- **C121**, construction of `containers::list`: a new list with all elements of the view, or an exception, and then no node and no list is left behind. -/
theorem C121_sized_construct {s : SHeap V} {A : Abs V} {st : Nat → Bool} (r : SRel s A st) {D : Nat} (p : PipeC τ ρ) (hp : p.Fits D)
    (conv : ρ → Item V) (noMem : Nat → Bool) (t : τ) :
    ∃ n thrown s', s.makeFromViewC D p conv noMem t = Out.of thrown s' ∧ Took p.Quiet conv noMem p.denote n thrown ∧
      SRel s' (if thrown then A.use (1 + n) else (A.set A.next (number (A.next + 1) (p.denote.map fun x => (conv x).val))).use (1 + n)) (upd st A.next false) := by
  have hsame : s.h.next = A.next := r.rel.same.symm
  have r1 := makeList_sz r
  obtain ⟨n, thrown, s2, e2, tk, r2⟩ := C121_sized_append (l := s.h.next) (xs := []) r1 (by simp) p hp conv noMem t
  cases thrown with
  | true =>
    obtain ⟨s3, e3, r3⟩ := dropList_sz (l := s.h.next) (xs := [] ++ number (A.next + 1) ((p.denote.take n).map fun x => (conv x).val)) r2 (by simp [Abs.set, Abs.use])
    refine ⟨n, true, s3, ?_, tk, ?_⟩
    · simp only [SHeap.makeFromViewC]
      rw [e2]
      simp only [Out.of_true, e3]
    · have hn := r.fresh
      rw [hsame] at hn r3
      have hu : upd A.lists A.next none = A.lists := by
        funext k; by_cases hk : k = A.next
        · subst hk; simp [hn]
        · simp [upd, hk]
      simp only [Abs.set, Abs.use, upd_upd, hu] at r3
      simpa [Abs.use, Nat.add_assoc] using r3
  | false =>
    refine ⟨n, false, s2, ?_, tk, ?_⟩
    · simp only [SHeap.makeFromViewC]
      rw [e2]
      simp only [Out.of_false]
    · have hn := tk.all rfl
      rw [hsame, hn, List.take_length] at r2
      simp only [Abs.set, Abs.use, upd_upd, List.nil_append] at r2
      simpa [Abs.set, Abs.use, hn, Nat.add_assoc] using r2

/-- **C121**, `append_after` to a singly linked list: the elements are between the position and the element that was behind it (`FRel` is the invariant of the claim
about singly linked lists). -/
theorem C121_append_after {h : FHeap V} {A : Abs V} {l pos : Nat} {xs} (r : FRel h A) (hl : A.lists l = some xs) (hpos : ValidPos l xs pos) {D : Nat} (p : PipeC τ ρ)
    (hp : p.Fits D) (conv : ρ → Item V) (noMem : Nat → Bool) (t : τ) :
    ∃ n thrown h', h.appendAfterViewC pos D p conv noMem t = Out.of thrown h' ∧ Took p.Quiet conv noMem p.denote n thrown ∧
      FRel h' ((A.set l (upTo l pos xs ++ number A.next ((p.denote.take n).map fun x => (conv x).val) ++ behind l pos xs)).use n) := by
  obtain ⟨hcut, hlast⟩ := r.cut hl hpos
  generalize upTo l pos xs = P at *
  generalize behind l pos xs = Q at *
  obtain ⟨n, thrown, q', e, hP, tk⟩ := feedViewC_eq (S := FHeap V × Nat) (push := FHeap.pushAfter) (conv := conv)
    (P := fun q vs => q.2 = lastId l (P ++ number A.next vs) ∧ FRel q.1 ((A.set l (P ++ number A.next vs ++ Q)).use vs.length)) (fun _ _ => rfl)
    (fun q vs v hq => by
      obtain ⟨hb, hr⟩ := hq
      obtain ⟨q', e, r'⟩ := finsert_spec (l := l) (P := P ++ number A.next vs) (Q := Q) hr (by simp [Abs.set, Abs.use]) v
      refine ⟨(q', q.1.next), by simp only [FHeap.pushAfter, FHeap.insertAfter, hb, e, ptr, Bool.false_eq_true, if_false], ?_, ?_⟩
      · rw [← number_snoc]
        have := hr.same
        simp [lastId, ids, Abs.use, Abs.set] at this ⊢
        omega
      · simp only [← number_snoc]
        simp only [Abs.set, Abs.use, upd_upd] at r' ⊢
        simpa [Nat.add_assoc] using r')
    p hp noMem (q := (h, pos)) (by
      refine ⟨by simp only [number, List.append_nil, hlast], ?_⟩
      simp only [number, List.append_nil, List.length_nil]
      rw [← hcut]
      simpa [Abs.set_self hl, Abs.use] using r) t
  refine ⟨n, thrown, q'.1, ?_, tk, ?_⟩
  · unfold FHeap.appendAfterViewC
    rw [e]
    cases thrown <;> rfl
  · have : ((p.denote.take n).map fun x => (conv x).val).length = n := by simp [tk.le]
    simpa only [this] using hP.2

/-- **C121**, construction of a doubly linked list: a new list with all elements of the view, or an exception, and then no list is left behind. Missing: if an
exception comes after the first element, nodes are lost (`C121_construct_violated`). -/
theorem C121_construct_partial {h : LHeap V} {A : Abs V} (r : Rel h A) {D : Nat} (p : PipeC τ ρ) (hp : p.Fits D) (conv : ρ → Item V) (noMem : Nat → Bool) (t : τ) :
    ∃ n thrown h', h.makeFromViewC D p conv noMem t = Out.of thrown h' ∧ Took p.Quiet conv noMem p.denote n thrown ∧
      (thrown = false → Rel h' ((A.set A.next (number (A.next + 1) (p.denote.map fun x => (conv x).val))).use (1 + n))) ∧ (thrown = true → n = 0 → Rel h' (A.use 1)) := by
  obtain ⟨r1, hn⟩ := makeList_spec r
  obtain ⟨n, thrown, h2, e2, tk, r2⟩ := C121_append (l := h.next) (xs := []) r1 (by simp) p hp conv noMem t
  cases thrown with
  | true =>
    refine ⟨n, true, { h2 with cell := upd h2.cell h.next none }, ?_, tk, fun e => (by cases e), fun _ h0 => ?_⟩
    · simp only [LHeap.makeFromViewC]
      rw [e2]
      simp only [Out.of_true]
    · subst h0
      obtain ⟨h3, e3, r3⟩ := freeList_spec (l := h.next) r2 (by simp [Abs.set, Abs.use, number])
      unfold LHeap.freeList at e3
      split at e3
      · injection e3 with e3
        rw [e3]
        simp only [Abs.set, Abs.use, upd_upd, upd_self hn] at r3 ⊢
        exact r3
      · cases e3
  | false =>
    refine ⟨n, false, h2, ?_, tk, fun _ => ?_, fun e => (by cases e)⟩
    · simp only [LHeap.makeFromViewC]
      rw [e2]
      simp only [Out.of_false]
    · have hn := tk.all rfl
      rw [hn, List.take_length] at r2
      simp only [Abs.set, Abs.use, upd_upd, List.nil_append, r.same] at r2
      simpa [Abs.set, Abs.use, hn, r.same, Nat.add_assoc] using r2

/-- **C121**, construction of a singly linked list, likewise. Missing: if an exception comes after the first element, nodes are lost
(`C121_construct_forward_violated`). -/
theorem C121_construct_forward_partial {h : FHeap V} {A : Abs V} (r : FRel h A) {D : Nat} (p : PipeC τ ρ) (hp : p.Fits D) (conv : ρ → Item V) (noMem : Nat → Bool) (t : τ) :
    ∃ n thrown h', h.makeFromViewC D p conv noMem t = Out.of thrown h' ∧ Took p.Quiet conv noMem p.denote n thrown ∧
      (thrown = false → FRel h' ((A.set A.next (number (A.next + 1) (p.denote.map fun x => (conv x).val))).use (1 + n))) ∧ (thrown = true → n = 0 → FRel h' (A.use 1)) := by
  obtain ⟨hn, r1⟩ := fmakeList_spec r
  rw [r.same] at r1
  obtain ⟨n, thrown, h2, e2, tk, r2⟩ := C121_append_after (l := h.next) (pos := h.next) (xs := []) r1 (by simp) (.inl rfl) p hp conv noMem t
  have hu : upTo h.next h.next ([] : List (Nat × V)) = [] := by simp [upTo, before]
  have hb : behind h.next h.next ([] : List (Nat × V)) = [] := by simp [behind, fromPos]
  rw [hu, hb] at r2
  cases thrown with
  | true =>
    refine ⟨n, true, { h2 with cell := upd h2.cell h.next none }, ?_, tk, fun e => (by cases e), fun _ h0 => ?_⟩
    · simp only [FHeap.makeFromViewC]
      rw [e2]
      simp only [Out.of_true]
    · subst h0
      have r3 := ffree_rel (l := h.next) r2 (by simp [Abs.set, Abs.use, number])
      simp only [Abs.set, Abs.use, upd_upd, upd_self hn] at r3 ⊢
      rw [r.same]
      exact r3
  | false =>
    refine ⟨n, false, h2, ?_, tk, fun _ => ?_, fun e => (by cases e)⟩
    · simp only [FHeap.makeFromViewC]
      rw [e2]
      simp only [Out.of_false]
    · have hn := tk.all rfl
      rw [hn, List.take_length] at r2
      simp only [Abs.set, Abs.use, upd_upd, List.nil_append, List.append_nil, r.same] at r2
      simpa [Abs.set, Abs.use, hn, r.same, Nat.add_assoc] using r2

/-- **C121**, `insert` into `containers::list`: all elements of the view are before the position, or there is an exception and every list is as before. -/
theorem C121_sized_insert {s : SHeap V} {A : Abs V} {st : Nat → Bool} {l pos : Nat} {xs} (r : SRel s A st) (hl : A.lists l = some xs) (hv : ValidPos l xs pos) {D : Nat}
    (p : PipeC τ ρ) (hp : p.Fits D) (conv : ρ → Item V) (noMem : Nat → Bool) (t : τ) :
    ∃ n thrown s', s.insertViewC l pos D p conv noMem t = Out.of thrown s' ∧ Took p.Quiet conv noMem p.denote n thrown ∧
      SRel s' (if thrown then A.use (1 + n) else
        (A.set l (before pos xs ++ number (A.next + 1) (p.denote.map fun x => (conv x).val) ++ fromPos pos xs)).use (1 + n)) st := by
  obtain ⟨n, thrown, s1, e1, tk, r1⟩ := C121_sized_construct r p hp conv noMem t
  have hnone := r.fresh
  have hlt := r.ne_fresh hl
  rw [r.rel.same] at r1
  cases thrown with
  | true =>
    refine ⟨n, true, s1, ?_, tk, r1.dropMark hnone⟩
    simp only [SHeap.insertViewC, e1, Out.of_true, Out.andThen_exn]
  | false =>
    simp only [Bool.false_eq_true, if_false] at r1 ⊢
    generalize (p.denote.map fun x => (conv x).val) = vs at *
    rw [← r.rel.same] at r1
    generalize hB : (A.set A.next (number (A.next + 1) vs)).use (1 + n) = B at r1
    have hBt : B.lists s.h.next = some (number (A.next + 1) vs) := by
      rw [← hB, ← r.rel.same]; simp [Abs.set, Abs.use]
    have hBl : B.lists l = some xs := by
      rw [← hB]; simp only [Abs.set, Abs.use]; rw [r.rel.same, upd_other _ _ hlt]; exact hl
    obtain ⟨s2, e2, r2⟩ := spliceAll_sz (l := l) (pos := pos) (o := s.h.next) r1
      ⟨⟨_, hBl⟩, ⟨_, hBt⟩, hlt, by rw [Abs.at_of hBl]; exact hv⟩
    have hBl' : (B.set s.h.next []).lists l = some xs := by simp only [Abs.set, upd_other _ _ hlt]; exact hBl
    simp only [Abs.spec, Abs.at_of hBt, Abs.at_of hBl'] at r2
    obtain ⟨s3, e3, r3⟩ := dropList_sz (l := s.h.next) (xs := []) r2 (by simp [Abs.set, upd_other _ _ (Ne.symm hlt)])
    refine ⟨n, false, s3, ?_, tk, ?_⟩
    · simp only [SHeap.insertViewC, e1, Out.of_false, Out.andThen_ok, e2, Option.bind_eq_bind, Option.bind_some, e3, ptr]
    · have hf : (A.set l (before pos xs ++ number (A.next + 1) vs ++ fromPos pos xs)).use (1 + n) =
          { ((B.set s.h.next []).set l (before pos xs ++ number (A.next + 1) vs ++ fromPos pos xs)) with
            lists := upd ((B.set s.h.next []).set l (before pos xs ++ number (A.next + 1) vs ++ fromPos pos xs)).lists s.h.next none } := by
        subst hB
        simp only [Abs.set, Abs.use]
        congr 1
        funext k
        by_cases hk : k = s.h.next
        · subst hk; simp [upd_other _ _ (Ne.symm hlt), hnone]
        · by_cases hkl : k = l
          · subst hkl; simp [upd, hk]
          · simp [upd, hk, hkl, r.rel.same]
      rw [hf]
      refine r3.stale fun k zs hk hs => ?_
      have hkt : k ≠ s.h.next := by rintro rfl; simp at hk
      rw [upd_other _ _ hkt]
      by_cases hkl : k = l
      · subst hkl; simp [upd_other _ _ hkt, hs, r.rel.same]
      · simp only [upd_other _ _ hkl, r.rel.same, upd_other _ _ hkt]; exact hs

/-- **C121**, `insert` into a doubly linked list, likewise. Missing: if an exception comes after the first element, nodes are lost, as in construction. -/
theorem C121_insert_partial {h : LHeap V} {A : Abs V} {l pos : Nat} {xs} (r : Rel h A) (hl : A.lists l = some xs) (hv : ValidPos l xs pos) {D : Nat}
    (p : PipeC τ ρ) (hp : p.Fits D) (conv : ρ → Item V) (noMem : Nat → Bool) (t : τ) :
    ∃ n thrown h', h.insertViewC pos D p conv noMem t = Out.of thrown h' ∧ Took p.Quiet conv noMem p.denote n thrown ∧
      (thrown = false → Rel h' ((A.set l (before pos xs ++ number (A.next + 1) (p.denote.map fun x => (conv x).val) ++ fromPos pos xs)).use (1 + n))) ∧
      (thrown = true → n = 0 → Rel h' (A.use 1)) := by
  obtain ⟨n, thrown, h1, e1, tk, r1, r0⟩ := C121_construct_partial r p hp conv noMem t
  have hnone := (makeList_spec r).2
  have hlt : l ≠ h.next := by rintro rfl; rw [hnone] at hl; cases hl
  cases thrown with
  | true =>
    refine ⟨n, true, h1, ?_, tk, fun e => (by cases e), r0⟩
    simp only [LHeap.insertViewC, e1, Out.of_true, Out.andThen_exn]
  | false =>
    have r1 := r1 rfl
    generalize (p.denote.map fun x => (conv x).val) = vs at *
    generalize hB : (A.set A.next (number (A.next + 1) vs)).use (1 + n) = B at r1
    have hBt : B.lists h.next = some (number (A.next + 1) vs) := by
      rw [← hB, ← r.same]; simp [Abs.set, Abs.use]
    have hBl : B.lists l = some xs := by
      rw [← hB]; simp only [Abs.set, Abs.use]; rw [r.same, upd_other _ _ hlt]; exact hl
    obtain ⟨h2, e2, r2⟩ := spliceAll_op (l := l) (pos := pos) (o := h.next) r1
      ⟨⟨_, hBl⟩, ⟨_, hBt⟩, hlt, by rw [Abs.at_of hBl]; exact hv⟩
    have hBl' : (B.set h.next []).lists l = some xs := by simp only [Abs.set, upd_other _ _ hlt]; exact hBl
    simp only [Abs.spec, Abs.at_of hBt, Abs.at_of hBl'] at r2
    obtain ⟨h3, e3, r3⟩ := dropList_op (l := h.next) (xs := []) r2 (by simp [Abs.set, upd_other _ _ (Ne.symm hlt)])
    refine ⟨n, false, h3, ?_, tk, fun _ => ?_, fun e => (by cases e)⟩
    · simp only [LHeap.insertViewC, e1, Out.of_false, Out.andThen_ok, e2, Option.bind_eq_bind, Option.bind_some, e3, ptr]
    · have hf : (A.set l (before pos xs ++ number (A.next + 1) vs ++ fromPos pos xs)).use (1 + n) =
          { ((B.set h.next []).set l (before pos xs ++ number (A.next + 1) vs ++ fromPos pos xs)) with
            lists := upd ((B.set h.next []).set l (before pos xs ++ number (A.next + 1) vs ++ fromPos pos xs)).lists h.next none } := by
        subst hB
        simp only [Abs.set, Abs.use]
        congr 1
        funext k
        by_cases hk : k = h.next
        · subst hk; simp [upd_other _ _ (Ne.symm hlt), hnone]
        · by_cases hkl : k = l
          · subst hkl; simp [upd, hk]
          · simp [upd, hk, hkl, r.same]
      rw [hf]
      exact r3

/-! ## Cases -/

/-- The list of C121 that is not `containers::list` loses nodes: the call 6 of the predicate throws, when the first element is in the list. Afterwards there is a node
with the element 1 and no list. -/
theorem C121_construct_violated :
    ∃ h, (LHeap.start Nat).makeFromViewC 100 twoOdd plain (fun _ => false) 5 = .exn h ∧ h.valOf 1 = some (some 1) ∧ ∀ a, h.valOf a ≠ some none := by
  refine ⟨_, rfl, rfl, fun a => ?_⟩
  match a with
  | 0 => exact (by decide : (none : Option (Option Nat)) ≠ some none)
  | 1 => exact (by decide : (some (some 1) : Option (Option Nat)) ≠ some none)
  | n + 2 => exact (by decide : (none : Option (Option Nat)) ≠ some none)

/-- The same for singly linked lists. -/
theorem C121_construct_forward_violated :
    ∃ h, (FHeap.start Nat).makeFromViewC 100 twoOdd plain (fun _ => false) 5 = .exn h ∧ h.valOf 1 = some (some 1) ∧ ∀ a, h.valOf a ≠ some none := by
  refine ⟨_, rfl, rfl, fun a => ?_⟩
  match a with
  | 0 => exact (by decide : (none : Option (Option Nat)) ≠ some none)
  | 1 => exact (by decide : (some (some 1) : Option (Option Nat)) ≠ some none)
  | n + 2 => exact (by decide : (none : Option (Option Nat)) ≠ some none)

/-- What a list holds after an operation, forward and backward, and whether it has thrown. -/
def shownL (l : Nat) : Out (LHeap Nat) → Option (Option (List Nat) × Option (List Nat) × Bool)
  | .ok h => some (h.forward l, h.backward l, false)
  | .exn h => some (h.forward l, h.backward l, true)
  | .ub => none

/-- `append` of two elements to an empty list that starts with the calls 3, ..., 6 of the predicate: no call throws; one behind the second element does, one behind the
first, one before it. Then with memory for one node, and with a conversion that throws. -/
example : [3, 4, 5, 6].map (fun t => shownL 0 ((LHeap.start Nat).makeList.appendViewC 0 100 twoOdd plain (fun _ => false) t)) =
    [some (some [1, 5], some [5, 1], false), some (some [1, 5], some [5, 1], true), some (some [1], some [1], true), some (some [], some [], true)] := by decide +kernel
example : shownL 0 ((LHeap.start Nat).makeList.appendViewC 0 100 twoOdd plain (fun i => i == 1) 0) = some (some [1], some [1], true) := by decide +kernel
example : shownL 0 ((LHeap.start Nat).makeList.appendViewC 0 100 twoOdd (fun x => ⟨x, x == 1⟩) (fun _ => false) 0) = some (some [], some [], true) := by decide +kernel

/-- The same with `containers::list` and its size. -/
example : [3, 4, 5, 6].map (fun t => match (SHeap.start Nat).makeList.appendViewC 0 100 twoOdd plain (fun _ => false) t with
    | .ok s => some (s.h.forward 0, s.sizeOf 0, false)
    | .exn s => some (s.h.forward 0, s.sizeOf 0, true)
    | .ub => none) =
    [some (some [1, 5], 2, false), some (some [1, 5], 2, true), some (some [1], 1, true), some (some [], 0, true)] := by decide +kernel

/-- Its construction: the list 0, or no node of the three that were used. -/
example : [3, 4, 5, 6].map (fun t => match (SHeap.start Nat).makeFromViewC 100 twoOdd plain (fun _ => false) t with
    | .ok s => some (s.h.forward 0, false)
    | .exn s => if [0, 1, 2].all fun a => (s.h.valOf a).isNone then some (none, true) else none
    | .ub => none) =
    [some (some [1, 5], false), some (none, true), some (none, true), some (none, true)] := by decide +kernel

/-- `append_after` the first element of a list of two. -/
example : [3, 4, 5, 6].map (fun t => match (FHeap.start Nat).makeFrom [8, 9] none with
    | .ok h => match h.appendAfterViewC 1 100 twoOdd plain (fun _ => false) t with
      | .ok h => some (h.forward 0, false)
      | .exn h => some (h.forward 0, true)
      | .ub => none
    | _ => none) =
    [some (some [8, 1, 5, 9], false), some (some [8, 1, 5, 9], true), some (some [8, 1, 9], true), some (some [8, 9], true)] := by decide +kernel

/-- `insert` before the second element of a list of two; an exception changes nothing. -/
example : [3, 4, 5, 6].map (fun t => match (SHeap.start Nat).makeFrom [8, 9] none with
    | .ok s => match s.insertViewC 0 2 100 twoOdd plain (fun _ => false) t with
      | .ok s => some (s.h.forward 0, s.sizeOf 0, false)
      | .exn s => some (s.h.forward 0, s.sizeOf 0, true)
      | .ub => none
    | _ => none) =
    [some (some [8, 1, 5, 9], 4, false), some (some [8, 9], 2, true), some (some [8, 9], 2, true), some (some [8, 9], 2, true)] := by decide +kernel
example : shownL 0 ((LHeap.start Nat).makeList.insertViewC 0 100 twoOdd plain (fun _ => false) 0) = some (some [1, 5], some [5, 1], false) := by decide +kernel

/-- The lists of the cases meet the hypotheses. -/
example : Rel (LHeap.start Nat).makeList ⟨upd (Abs.start Nat).lists 0 (some []), 1⟩ := (makeList_spec (rel_start Nat)).1
example : SRel (SHeap.start Nat) (Abs.start Nat) fun _ => false := ⟨rel_start Nat, fun hl => by cases hl⟩
example : FRel (FHeap.start Nat).makeList ⟨upd (Abs.start Nat).lists 0 (some []), 1⟩ := (fmakeList_spec (frel_start Nat)).2
example : twoOdd.Fits 100 ∧ ¬ twoOdd.Quiet := ⟨by simp [twoOdd, PipeC.Fits], fun h => h.1 1 6 rfl⟩

end Verif.Lists
