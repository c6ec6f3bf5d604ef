import Verif.Containers.ConcatenateThrowing

/-!
# `assign` of views whose functions throw, for elements that are not trivially copyable

The first elements of the view are assigned to the elements that are there, what is left over of one of them is erased or appended. The functions of the view keep a state and
can throw in each of the three passes: while elements are assigned, while the rest of the view is counted, and while it is copied.
-/

namespace Verif.Containers

open Verif Verif.Views Verif.Views.Calling Lawful

variable {V O τ σ ρ : Type} {I : Impl V O} {mn : Nat} {mkA : Bool} {L : Lawful I mn mkA}

/-! ## Model -/

/-- source/containers/algorithms/copy.cpp 44-56 `copy_truncate` of a view to the elements from `pos` on, of which there are `rest`, as `copyTruncate`. An assignment that throws
leaves the value `left` in its target; a function that throws when the view is read is called before the assignment. -/
def copyTruncateC (r : RngC τ σ ρ) (conv : ρ → Item V) (left : V) (cap : Nat) : Nat → Cells V → Nat → σ → τ → Out (Cells V × Nat × σ × τ)
  | 0, m, pos, s, t =>
    match r.atEnd s t with
    | .ub => .ub
    | .exn t => .exn (m, pos, s, t)
    | .ok _ t => .ok (m, pos, s, t)
  | rest + 1, m, pos, s, t =>
    match r.atEnd s t with
    | .ub => .ub
    | .exn t => .exn (m, pos, s, t)
    | .ok true t => .ok (m, pos, s, t)
    | .ok false t =>
      match r.deref s t with
      | .ub => .ub
      | .exn t => .exn (m, pos, s, t)
      | .ok x t =>
        match readCell cap m pos with
        | none => .ub
        | some _ =>
          if (conv x).throws then .exn (upd m pos (some left), pos, s, t)
          else
            match r.next s t with
            | .ub => .ub
            | .exn t => .exn (upd m pos (some (conv x).val), pos, s, t)
            | .ok s t => copyTruncateC r conv left cap rest (upd m pos (some (conv x).val)) (pos + 1) s t

namespace Impl

/-- `uninitialized_copy_no_overlap` (source/containers/algorithms/uninitialized.cpp 54-63, 77-96) of the elements from the iterator `s` on, to the object's own storage. -/
def copyRestC (I : Impl V O) (r : RngC τ σ ρ) (s : σ) (conv : ρ → Item V) (t : τ) (h : Heap V) (o : O) (pos : Nat) : Out (Heap V × O) :=
  match copyLoopC r conv (I.mem h o).1 ((I.mem h o).1 - pos + 1) (I.mem h o).2 pos s t with
  | .ok (m, _) => .ok (I.put h o m)
  | .exn (m, pos') =>
    match destroyRange (I.mem h o).1 m pos (pos' - pos) with
    | some m' => .exn (I.put h o m')
    | none => .ub
  | .ub => .ub

/-- `linear_size` (source/containers/linear_size.cpp 28-39) of the elements from the iterator `s` on. A view that knows its size `n` also knows how many elements there are from an
iterator on that has passed `pos`; the others are counted. -/
def restSizeC (D : Nat) (r : RngC τ σ ρ) (s : σ) (size? : Option Nat) (pos : Nat) : Act τ Nat :=
  match size? with
  | some n => .pure (n - pos)
  | none => distanceC r (D + 1) s 0

/-- source/containers/assign.cpp 84-90: `append(target, subrange(input, end(source)))` for a container that can reserve (source/containers/append.cpp 38-54). -/
def appendRestC (I : Impl V O) (D : Nat) (r : RngC τ σ ρ) (s : σ) (size? : Option Nat) (pos : Nat) (conv : ρ → Item V) (h : Heap V) (o : O) (al : Nat → Bool) (t : τ) : Out (Heap V × O) :=
  match restSizeC D r s size? pos t with
  | .ub => .ub
  | .exn _ => .exn (h, o)
  | .ok n t => I.appendGrow h o n (I.copyRestC r s conv t) al

/-- source/containers/assign.cpp 81-91: `assign(target, view)` for elements that are not trivially copyable. -/
def assignViewC (I : Impl V O) (D : Nat) (a : ViewArg V τ) (left : V) (h : Heap V) (o : O) (al : Nat → Bool) (t : τ) : Out (Heap V × O) :=
  match a.view.build D t with
  | .ub => .ub
  | .exn _ => .exn (h, o)
  | .ok B t =>
    match copyTruncateC B.ops a.conv left (I.mem h o).1 (I.size o) (I.mem h o).2 0 B.first t with
    | .ub => .ub
    | .exn (m, _) => .exn (I.put h o m)
    | .ok (m, pos, s, t) =>
      match I.eraseToEnd (I.put h o m).1 (I.put h o m).2 pos with
      | .ub => .ub
      | .exn r => .exn r
      | .ok (h1, o1) => I.appendRestC D B.ops s a.size? pos a.conv h1 o1 al t

end Impl

/-! ## Properties -/

/-- What an exception leaves of the elements `xs` while the elements `ys` are assigned to them: the first `j` have been assigned, the others are as they were, but for the one to which an
assignment has thrown. -/
def Torn (left : V) (ys : List (Item V)) (xs zs : List V) : Prop :=
  ∃ j, j ≤ xs.length ∧ j ≤ ys.length ∧ (zs = (ys.map (·.val)).take j ++ xs.drop j ∨
    (j < xs.length ∧ zs = (ys.map (·.val)).take j ++ left :: xs.drop (j + 1) ∧ ∃ y, ys[j]? = some y ∧ y.throws = true))

theorem Torn.cons {left x : V} {y : Item V} {ys : List (Item V)} {xs zs : List V} (h : Torn left ys xs zs) : Torn left (y :: ys) (x :: xs) (y.val :: zs) := by
  obtain ⟨j, h1, h2, h⟩ := h
  refine ⟨j + 1, by simpa using h1, by simpa using h2, ?_⟩
  rcases h with rfl | ⟨h3, rfl, h4⟩
  · left; simp
  · right; exact ⟨by simpa using h3, by simp, by simpa using h4⟩

theorem Torn.length {left : V} {ys : List (Item V)} {xs zs : List V} (h : Torn left ys xs zs) : zs.length = xs.length := by
  obtain ⟨j, h1, h2, rfl | ⟨h3, rfl, -⟩⟩ := h <;> simp <;> omega

theorem copyTruncateC_eq {quiet : Prop} {r : RngC τ σ ρ} (conv : ρ → Item V) (left : V) (cap : Nat) : ∀ (xs pre : List V) (ys : List ρ) (s : σ) (t : τ), VisitsC quiet r s ys →
    pre.length + xs.length ≤ cap →
    match copyTruncateC r conv left cap xs.length (cells (pre ++ xs)) pre.length s t with
    | .ub => False
    | .exn (m, _) => ∃ zs, m = cells (pre ++ zs) ∧ Torn left (ys.map conv) xs zs ∧ (quiet → ∃ y ∈ ys, (conv y).throws = true)
    | .ok (m, pos, s', _) => m = cells (pre ++ ((ys.map fun y => (conv y).val).take xs.length ++ xs.drop ys.length)) ∧ pos = pre.length + min ys.length xs.length ∧
        VisitsC quiet r s' (ys.drop xs.length) ∧ ∀ y ∈ ys.take xs.length, (conv y).throws = false := by
  intro xs
  induction xs with
  | nil =>
    intro pre ys s t h hc
    have he := h.atEnd t
    simp only [List.length_nil, copyTruncateC]
    cases e : r.atEnd s t with
    | ub => rw [e] at he; exact he.elim
    | exn t1 => rw [e] at he; exact ⟨[], rfl, ⟨0, by simp, by simp, by simp⟩, fun q => absurd q he⟩
    | ok b t1 => exact ⟨by simp, by simp, by simpa using h, by simp⟩
  | cons x xs ih =>
    intro pre ys s t h hc
    simp only [List.length_cons] at hc
    have he := h.atEnd t
    have hsame : ∀ q : List ρ, Torn left (q.map conv) (x :: xs) (x :: xs) := fun q => ⟨0, by simp, by simp, by simp⟩
    simp only [List.length_cons, copyTruncateC]
    cases e : r.atEnd s t with
    | ub => rw [e] at he; exact he.elim
    | exn t1 => rw [e] at he; exact ⟨x :: xs, rfl, hsame _, fun q => absurd q he⟩
    | ok b t1 =>
      rw [e] at he
      have he : b = ys.isEmpty := he
      subst he
      cases ys with
      | nil => exact ⟨by simp, by simp, by simpa using h, by simp⟩
      | cons y ys =>
        obtain ⟨-, h2, s', h3, h4⟩ := h
        simp only [List.isEmpty_cons]
        have h2 := h2 t1
        cases e2 : r.deref s t1 with
        | ub => rw [e2] at h2; exact h2.elim
        | exn t2 => rw [e2] at h2; exact ⟨x :: xs, rfl, hsame _, fun q => absurd q h2⟩
        | ok y' t2 =>
          rw [e2] at h2
          have h2 : y' = y := h2
          subst h2
          have hr : readCell cap (cells (pre ++ x :: xs)) pre.length = some x := by
            simp only [readCell, cells]; rw [if_pos (by omega)]; simp
          simp only [hr]
          have hset : ∀ v : V, upd (cells (pre ++ x :: xs)) pre.length (some v) = cells (pre ++ v :: xs) := by
            intro v; rw [upd_cells (by simp)]; simp [List.set_append]
          cases ht : (conv y').throws with
          | true =>
            simp only [if_true, hset]
            exact ⟨left :: xs, rfl, ⟨0, by simp, by simp, .inr ⟨by simp, by simp, conv y', by simp, ht⟩⟩, fun _ => ⟨y', by simp, ht⟩⟩
          | false =>
            simp only [Bool.false_eq_true, if_false, hset]
            have h3 := h3 t2
            cases e3 : r.next s t2 with
            | ub => rw [e3] at h3; exact h3.elim
            | exn t3 =>
              rw [e3] at h3
              exact ⟨(conv y').val :: xs, rfl, ⟨1, by simp, by simp, by simp⟩, fun q => absurd q h3⟩
            | ok s1 t3 =>
              rw [e3] at h3
              have h3 : s1 = s' := h3
              subst h3
              have := ih (pre ++ [(conv y').val]) ys s1 t3 h4 (by simp; omega)
              simp only [List.append_assoc, List.singleton_append, List.length_append, List.length_cons, List.length_nil, Nat.zero_add] at this
              cases e4 : copyTruncateC r conv left cap xs.length (cells (pre ++ (conv y').val :: xs)) (pre.length + 1) s1 t3 with
              | ub => rw [e4] at this; exact this.elim
              | exn q =>
                rw [e4] at this
                simp only [e4]
                obtain ⟨zs, g1, g2, g3⟩ := this
                exact ⟨(conv y').val :: zs, g1, g2.cons, fun q => by obtain ⟨w, hw, hw2⟩ := g3 q; exact ⟨w, by simp [hw], hw2⟩⟩
              | ok q =>
                rw [e4] at this
                simp only [e4]
                obtain ⟨g1, g2, g3, g4⟩ := this
                refine ⟨by simpa using g1, by simp only [List.length_cons]; omega, by simpa using g3, ?_⟩
                intro w hw
                simp only [List.take_succ_cons, List.mem_cons] at hw
                rcases hw with rfl | hw
                · exact ht
                · exact g4 w hw

theorem sub_min (a b : Nat) : a - min a b = a - b := by omega

theorem copyRestC_eq [Inhabited V] {quiet : Prop} {r : RngC τ σ ρ} {ys : List ρ} {s : σ} (hv : VisitsC quiet r s ys) (conv : ρ → Item V) (t : τ) :
    ∃ its, Meets quiet conv ys its ∧ I.copyRestC r s conv t = fun h o pos => I.copyAt h o pos its := by
  obtain ⟨its, hm, h⟩ := copyLoopC_eq (conv := conv) hv t
  refine ⟨its, hm, ?_⟩
  funext h' o pos
  simp only [Impl.copyRestC, Impl.copyAt, uninitCopy, h _ _ _ _ (Nat.lt_succ_self _)]
  cases copyLoop (I.mem h' o).1 (I.mem h' o).2 pos its with
  | ok q => rfl
  | ub => rfl
  | exn q =>
    simp only
    cases destroyRange (I.mem h' o).1 q.1 pos (q.2 - pos) <;> rfl

theorem appendRestC_good [Inhabited V] {quiet : Prop} {r : RngC τ σ ρ} {ys : List ρ} {s : σ} (hv : VisitsC quiet r s ys) {D : Nat} (hD : ys.length ≤ D) {size? : Option Nat} {pos : Nat}
    (hs : ∀ n, size? = some n → n - pos = ys.length) (conv : ρ → Item V) {h : Heap V} {o : O} {xs : List V} {cap : Nat} (rep : L.Rep h o xs cap) (hf : Fresh h)
    (hr : I.reservable = true) (al : Nat → Bool) (t : τ) :
    ∃ fails, (quiet → (∀ y ∈ ys, (conv y).throws = false) → fails = false) ∧ ((∃ y ∈ ys, (conv y).throws = true) → fails = true) ∧
      Good L h o (I.appendRestC D r s size? pos conv h o al t) (specInsert L.cfg (xs, cap) xs.length (ys.map fun y => (conv y).val) (!fails) al) := by
  have hz : Post quiet (Impl.restSizeC D r s size? pos) (· = ys.length) := by
    cases size? with
    | some n => exact Post.pure (hs n rfl)
    | none => exact (distanceC_post hv (Nat.lt_succ_of_le hD)).mono id fun _ e => e.trans (Nat.zero_add _)
  have hz := hz t
  simp only [Impl.appendRestC]
  cases e : Impl.restSizeC D r s size? pos t with
  | ub => rw [e] at hz; exact hz.elim
  | exn t1 =>
    rw [e] at hz
    refine ⟨true, fun q => absurd q hz, fun _ => rfl, ?_⟩
    rw [Bool.not_true, specInsert_throws]
    exact good_same rep true
  | ok n t1 =>
    rw [e] at hz
    have hz : n = ys.length := hz
    subst hz
    obtain ⟨its, hm, ec⟩ := copyRestC_eq (I := I) hv conv t1
    simp only [ec]
    rcases hm.cases with rfl | ⟨g1, g2, g3⟩
    · refine ⟨(ys.map conv).any (·.throws), fun _ q => by simpa using q, fun q => by simpa using q, ?_⟩
      have := good_append rep hf (ys.map conv) al (fun hn => absurd (show I.reservable = false from hn) (by simp [hr]))
      rw [← appendGrow_eq hr, List.length_map, List.map_map] at this
      exact this
    · refine ⟨true, fun q => absurd q g1, fun _ => rfl, ?_⟩
      rw [Bool.not_true, specInsert_throws]
      exact good_append_throws rep hf hr g2 g3 al

/-- **C119**, `assign` of such a view to a container of elements that are not trivially copyable, which can reserve. Nothing undefined happens, and there are two ways in which it ends. A
function or an assignment throws while elements are assigned: then the container has its capacity and as many elements as before, of which the first are those of the view and the
others are as they were, but for the one to which an assignment has thrown. Or as many elements as there were have been assigned, and the rest of the view is appended with
all guarantees of `append`. It throws only if a function, an element or an allocation does, and always if an element does. -/
theorem C119_assign_elements [Inhabited V] {h : Heap V} {o : O} {xs : List V} {cap D : Nat} (r : L.Rep h o xs cap) (hf : Fresh h) (hr : I.reservable = true) (a : ViewArg V τ)
    (ha : a.Ok D) (left : V) (al : Nat → Bool) (t : τ) :
    (∃ zs, Torn left (a.view.denote.map a.conv) xs zs ∧ ¬ a.Never ∧ Good L h o (I.assignViewC D a left h o al t) ((zs, cap), true)) ∨
    (∃ fails, MayFail a.view a.conv fails ∧ Good L h o (I.assignViewC D a left h o al t)
      (specInsert L.cfg (a.elems.take xs.length, cap) (a.elems.take xs.length).length (a.elems.drop xs.length) (!fails) al)) := by
  have hs : I.size o = xs.length := r.1.2.2
  have hr2 := r.2
  have hv := C116_view a.view ha.1 t
  simp only [Impl.assignViewC]
  cases e : a.view.build D t with
  | ub => rw [e] at hv; exact hv.elim
  | exn t1 => rw [e] at hv; exact .inl ⟨xs, ⟨0, by simp, by simp, by simp⟩, fun q => hv q.1, good_same r true⟩
  | ok B t1 =>
    rw [e] at hv
    have hc := copyTruncateC_eq a.conv left cap xs [] a.view.denote B.first t1 hv (by simpa using hr2)
    simp only [List.nil_append, List.length_nil, Nat.zero_add] at hc
    simp only [r.mem, hs]
    cases e2 : copyTruncateC B.ops a.conv left cap xs.length (cells xs) 0 B.first t1 with
    | ub => rw [e2] at hc; exact hc.elim
    | exn q =>
      obtain ⟨m, q⟩ := q
      rw [e2] at hc
      obtain ⟨zs, rfl, g1, g2⟩ := hc
      have hl := g1.length
      obtain ⟨v, eo, fr⟩ := r.view.put (cells zs)
      refine .inl ⟨zs, g1, fun q => ?_, _, _, rfl, rep_of v rfl hl.symm (show zs.length ≤ cap from hl ▸ hr2), fr, rule_same r eo⟩
      obtain ⟨y, hy, hy2⟩ := g2 q.1
      simp [q.2 y hy] at hy2
    | ok q =>
      obtain ⟨m, pos, s, t2⟩ := q
      rw [e2] at hc
      obtain ⟨rfl, rfl, g3, g4⟩ := hc
      right
      simp only
      have hle : a.elems.length = a.view.denote.length := by simp [ViewArg.elems]
      have hel : (a.view.denote.map fun y => (a.conv y).val) = a.elems := rfl
      rw [hel, ← hle]
      obtain ⟨v, eo, fr⟩ := r.view.put (cells (a.elems.take xs.length ++ xs.drop a.elems.length))
      have hl : (a.elems.take xs.length ++ xs.drop a.elems.length).length = xs.length := by rw [List.length_append, List.length_take, List.length_drop]; omega
      have r1 := rep_of v rfl hl.symm (by omega)
      obtain ⟨h1, o1, e1, r1', f1, pr1⟩ := good_eraseToEnd (k := min a.elems.length xs.length) r1 (by omega)
      rw [e1]
      simp only [Out.of_false]
      have htake : (a.elems.take xs.length ++ xs.drop a.elems.length).take (min a.elems.length xs.length) = a.elems.take xs.length := by
        rw [List.take_append_of_le_length (by rw [List.length_take]; omega), List.take_take]
        by_cases hq : a.elems.length ≤ xs.length
        · rw [Nat.min_eq_left hq, List.take_of_length_le (l := a.elems) (i := xs.length) hq, List.take_of_length_le (by omega)]
        · congr 1; omega
      rw [htake] at r1'
      have hlD := a.view.length_le ha.1
      obtain ⟨fails, m1, m2, h2, o2, e3, r2, f2, pr2⟩ := appendRestC_good g3 (D := D) (by rw [List.length_drop]; omega) (size? := a.size?) (pos := min a.elems.length xs.length)
        (fun n hn => by rw [ha.2 n hn, List.length_drop, ← hle]; exact sub_min a.elems.length xs.length) a.conv r1' ((fr.trans f1).fresh hf) hr al t2
      rw [show ((a.view.denote.drop xs.length).map fun y => (a.conv y).val) = a.elems.drop xs.length from by rw [← hel, List.map_drop]] at e3 r2 pr2
      refine ⟨fails, ⟨fun q1 q2 => m1 q1 fun y hy => q2 y (List.mem_of_mem_drop hy), fun q => ?_⟩, h2, o2, e3, r2, (fr.trans f1).trans f2, rule_from r r1 eo (rule_trans r1 r1' pr1 pr2)⟩
      obtain ⟨y, hy, hy2⟩ := q
      rw [← List.take_append_drop xs.length a.view.denote] at hy
      rcases List.mem_append.1 hy with hy | hy
      · simp [g4 y hy] at hy2
      · exact m2 ⟨y, hy, hy2⟩

/-- Elements 2, 2, 1, 5, of which the last two are behind a predicate whose call 6 throws. -/
def fourView : ViewArg Nat Nat := ⟨.concat (.elements [2, 2]) twoOdd, none, plain⟩

theorem fourView_ok : fourView.Ok 100 := by
  refine ⟨?_, by simp [fourView]⟩
  simp only [fourView, twoOdd, PipeC.Fits, PipeC.denote]
  decide +kernel

example : fourView.Ok 100 ∧ fourView.elems = [2, 2, 1, 5] := ⟨fourView_ok, by decide +kernel⟩

/-- It is assigned to 1 2 3, with room and without; the calls of the predicate start with each of the calls 0, ..., 6 in turn. The call that throws is the one of `begin`, then the
one after the third element has been assigned, the one that counts the rest, and the one that copies it. -/
example :
    [9, 3].map (fun cap => [0, 1, 2, 3, 4, 5, 6].map fun t => shownC (vec Nat 0 99) ((vec Nat 0 99).assignViewC 100 fourView 0 (aliasHeap cap).1 (aliasHeap cap).2 noFail t)) =
      List.replicate 2 (List.replicate 3 (some ([some 2, some 2, some 1, some 5], false)) ++ List.replicate 3 (some ([some 2, some 2, some 1], true)) ++
        [some ([some 1, some 2, some 3], true)]) := by decide +kernel

/-- A view with fewer elements, 7 and 5: the last of the three calls throws when both have been assigned, the second one when one has; and the assignment of 5 throws. -/
example :
    ([3, 4, 5, 6].map fun t => shownC (vec Nat 0 99) ((vec Nat 0 99).assignViewC 100 ⟨.filter oddFn (.elements [7, 5, 6]), none, plain⟩ 0 (aliasHeap 9).1 (aliasHeap 9).2 noFail t)) =
      [some ([some 7, some 5], false), some ([some 7, some 5, some 3], true), some ([some 7, some 2, some 3], true), some ([some 1, some 2, some 3], true)] ∧
    shownC (vec Nat 0 99) ((vec Nat 0 99).assignViewC 100 ⟨.filter oddFn (.elements [7, 5, 6]), none, fun x => ⟨x, x == 5⟩⟩ 0 (aliasHeap 9).1 (aliasHeap 9).2 noFail 0) =
      some ([some 7, some 0, some 3], true) := by decide +kernel

/-- The vector, the view and any allocations meet the hypotheses. -/
example (al : Nat → Bool) (t : Nat) :=
  C119_assign_elements (L := (Vec.lawful 0 9 (by decide) : Lawful (vec Nat 0 9) 0 _)) (D := 100) (aliasHeap_rep 5 (by decide) (by decide)) (fun b hb => by
    have : b ≠ 0 := by rintro rfl; exact absurd hb (by decide)
    simp [aliasHeap, upd, this]) rfl fourView fourView_ok 0 al t

end Verif.Containers
