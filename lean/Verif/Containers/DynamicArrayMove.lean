import Verif.Containers.DynamicArray
import Verif.Containers.MoveSource

/-!
# Dynamic arrays built from and assigned rvalue containers (properties C57, C59)

The source is a container with `set_size` of elements that are not trivially copyable, as in `MoveSource`.
-/

namespace Verif.Containers

open Verif

variable {U V : Type}

namespace DA

/-- Construction from an rvalue container (source/containers/dynamic_array.cpp 52-58): the size is checked first (line 54), storage is
allocated, the elements are relocated one by one. -/
def buildFrom (conv : U → Item V) (lo hi : Nat) (h : Heap V) (d : Donor U) (al : Bool) : Out (Donor U × Heap V × DA) :=
  if d.size < lo ∨ hi < d.size then .exn (d, h, ⟨none, 0⟩)
  else if al then .exn (d, h, ⟨none, 0⟩)
  else
    let a := h.alloc d.size
    match uninitCopyFrom conv d.size (fun _ => none) 0 d with
    | .ok (d', c) => .ok (d', ⟨upd a.1.blk a.2 (some ⟨d.size, c⟩), a.1.next⟩, ⟨some a.2, d.size⟩)
    | .exn (d', c) =>
      match dealloc ⟨upd a.1.blk a.2 (some ⟨d.size, c⟩), a.1.next⟩ ⟨some a.2, d.size⟩ with
      | some h => .exn (d', h, ⟨none, 0⟩)
      | none => .ub
    | .ub => .ub

/-- source/containers/algorithms/copy.cpp 36-39 `*output = make(); ++output;` onto an existing element; an assignment that throws leaves
`left` in it. -/
def assignOutput (conv : U → Item V) (cap : Nat) (left : V) (s : Cells V × Nat) (u : U) : FnOut (Cells V × Nat) :=
  match readCell cap s.1 s.2 with
  | none => .ub
  | some _ => if (conv u).throws then .after (upd s.1 s.2 (some left), s.2) else .ok (upd s.1 s.2 (some (conv u).val), s.2 + 1)

/-- Construction of a temporary from an rvalue container that is then moved to `o`. -/
def replaceByFrom (conv : U → Item V) (lo hi : Nat) (h : Heap V) (o : DA) (d : Donor U) (al : Bool) : Out (Donor U × Heap V × DA) :=
  match buildFrom conv lo hi h d al with
  | .ub => .ub
  | .exn (d', h, _) => .exn (d', h, o)
  | .ok (d', h, t) =>
    match moveFrom h o with
    | none => .ub
    | some h => .ok (d', h, t)

/-- `assign` of an rvalue container (source/containers/dynamic_array.cpp 117-133). Line 118: the size is read first. -/
def assignFrom (conv : U → Item V) (lo hi : Nat) (h : Heap V) (o : DA) (d : Donor U) (al : Bool) (left : V) : Out (Donor U × Heap V × DA) :=
  match o.ptr with
  | none => replaceByFrom conv lo hi h o d al
  | some b =>
    if some d.size = o.size then
      match h.blk b with
      | none => .ub
      | some B =>
        match copyOrRelocateFrom (assignOutput conv B.cap left) d (B.cell, 0) with
        | .ub => .ub
        | .exn (d', c, _) => .exn (d', ⟨upd h.blk b (some ⟨B.cap, c⟩), h.next⟩, o)
        | .ok (d', c, _) => .ok (d', ⟨upd h.blk b (some ⟨B.cap, c⟩), h.next⟩, o)
    else if lo = 0 then
      match moveFrom h o with
      | none => .ub
      | some h => replaceByFrom conv lo hi h ⟨none, 0⟩ d al
    else replaceByFrom conv lo hi h o d al

end DA

theorem uninitCopyFrom_eq {conv : U → Item V} {d : Donor U} {ys : List U} (hd : d.Holds ys) (hn : ∀ y ∈ ys, (conv y).throws = false)
    (cap : Nat) (m : Cells V) (out : Nat) :
    uninitCopyFrom conv cap m out d = (uninitCopy cap m out (ys.map conv)).bind (fun c => .ok (d.emptied, c)) (fun c => (d, c)) := by
  have hne := copyLoop_nothrow cap (ys.map conv) m out (by
    intro it hit; obtain ⟨y, hy, rfl⟩ := List.mem_map.1 hit; exact hn y hy)
  simp only [uninitCopyFrom, copyOrRelocateFrom_eq _ hd, feed_construct, uninitCopy]
  cases hc : copyLoop cap m out (ys.map conv) with
  | ub => rfl
  | exn r => exact absurd hc (hne r)
  | ok r => rfl

theorem uninitCopy_not_exn {src : List (Item V)} (hn : ∀ it ∈ src, it.throws = false) (cap : Nat) (m : Cells V) (out : Nat) (c : Cells V) :
    uninitCopy cap m out src ≠ .exn c := by
  have hne := copyLoop_nothrow cap src m out hn
  simp only [uninitCopy]
  cases hc : copyLoop cap m out src with
  | ub => simp
  | exn r => exact absurd hc (hne r)
  | ok r => simp

theorem buildFrom_eq {conv : U → Item V} {d : Donor U} {ys : List U} (hd : d.Holds ys) (hn : ∀ y ∈ ys, (conv y).throws = false)
    (lo hi : Nat) (h : Heap V) (al : Bool) :
    DA.buildFrom conv lo hi h d al = Moved d (DA.build lo hi h (ys.map conv) al) := by
  have hs := hd.2.1
  have hn' : ∀ it ∈ ys.map conv, it.throws = false := by
    intro it hit; obtain ⟨y, hy, rfl⟩ := List.mem_map.1 hit; exact hn y hy
  simp only [DA.buildFrom, DA.build, List.length_map, hs, uninitCopyFrom_eq hd hn]
  by_cases h1 : ys.length < lo ∨ hi < ys.length
  · simp only [if_pos h1]; rfl
  · simp only [if_neg h1]
    cases al with
    | true => rfl
    | false =>
      simp only [Bool.false_eq_true, if_false]
      cases hc : uninitCopy ys.length (fun _ => none) 0 (ys.map conv) with
      | ub => rfl
      | exn c => exact absurd hc (uninitCopy_not_exn hn' _ _ _ _)
      | ok c => rfl

theorem replaceByFrom_eq {conv : U → Item V} {d : Donor U} {ys : List U} (hd : d.Holds ys) (hn : ∀ y ∈ ys, (conv y).throws = false)
    (lo hi : Nat) (h : Heap V) (o : DA) (al : Bool) :
    DA.replaceByFrom conv lo hi h o d al = Moved d (DA.replaceBy lo hi h o (ys.map conv) al) := by
  simp only [DA.replaceByFrom, DA.replaceBy, buildFrom_eq hd hn]
  cases DA.build lo hi h (ys.map conv) al with
  | ub => rfl
  | exn r => rfl
  | ok r =>
    obtain ⟨h1, t⟩ := r
    simp only [Moved, Out.bind]
    cases DA.moveFrom h1 o <;> rfl

theorem feed_assign (conv : U → Item V) (cap : Nat) (left : V) : ∀ (ys : List U) (m : Cells V) (out : Nat),
    (∀ y ∈ ys, (conv y).throws = false) →
    (feed (DA.assignOutput conv cap left) (m, out) ys).1 =
      (DA.assignLoop cap left m out (ys.map conv)).bind (fun c => .ok (c, out + ys.length)) (fun c => (c, out))
  | [], m, out, _ => rfl
  | y :: ys, m, out, hn => by
    have h0 := hn y (by simp)
    simp only [feed, DA.assignOutput, List.map_cons, DA.assignLoop]
    cases hc : readCell cap m out with
    | none => rfl
    | some x =>
      simp only [h0, Bool.false_eq_true, if_false]
      rw [feed_assign conv cap left ys _ (out + 1) fun z hz => hn z (by simp [hz])]
      have hne : ∀ c, DA.assignLoop cap left (upd m out (some (conv y).val)) (out + 1) (ys.map conv) ≠ .exn c := by
        have key : ∀ (src : List (Item V)) (m : Cells V) (k : Nat), (∀ it ∈ src, it.throws = false) → ∀ c, DA.assignLoop cap left m k src ≠ .exn c := by
          intro src
          induction src with
          | nil => intro m k _ c; simp [DA.assignLoop]
          | cons it its ih =>
            intro m k hs c
            simp only [DA.assignLoop]
            cases readCell cap m k with
            | none => simp
            | some _ =>
              simp only [hs it (by simp), Bool.false_eq_true, if_false]
              exact ih _ _ (fun z hz => hs z (by simp [hz])) c
        exact key _ _ _ (by
          intro it hit; obtain ⟨z, hz, rfl⟩ := List.mem_map.1 hit; exact hn z (by simp [hz]))
      cases hl : DA.assignLoop cap left (upd m out (some (conv y).val)) (out + 1) (ys.map conv) with
      | ub => rfl
      | exn c => exact absurd hl (hne c)
      | ok c => simp only [Out.bind, List.length_cons, Out.ok.injEq, Prod.mk.injEq, true_and]; omega

theorem assignFrom_eq {conv : U → Item V} {d : Donor U} {ys : List U} (hd : d.Holds ys) (hn : ∀ y ∈ ys, (conv y).throws = false)
    (lo hi : Nat) (h : Heap V) (o : DA) (al : Bool) (left : V) :
    DA.assignFrom conv lo hi h o d al left = Moved d (DA.assign lo hi h o (ys.map conv) al left) := by
  have hs := hd.2.1
  simp only [DA.assignFrom, DA.assign, replaceByFrom_eq hd hn, List.length_map, hs]
  cases o.ptr with
  | none => rfl
  | some b =>
    dsimp only
    by_cases h1 : some ys.length = o.size
    · simp only [if_pos h1]
      cases h.blk b with
      | none => rfl
      | some B =>
        dsimp only
        rw [copyOrRelocateFrom_eq _ hd, feed_assign conv B.cap left ys B.cell 0 hn]
        have hne : ∀ c, DA.assignLoop B.cap left B.cell 0 (ys.map conv) ≠ .exn c := by
          intro c hc
          have := feed_assign conv B.cap left ys B.cell 0 hn
          rw [hc] at this
          have key : ∀ (ys : List U) (m : Cells V) (k : Nat), (∀ y ∈ ys, (conv y).throws = false) →
              ∀ r, (feed (DA.assignOutput conv B.cap left) (m, k) ys).1 ≠ .exn r := by
            intro ys
            induction ys with
            | nil => intro m k _ r; simp [feed]
            | cons y ys ih =>
              intro m k hs r
              simp only [feed, DA.assignOutput]
              cases readCell B.cap m k with
              | none => simp
              | some _ =>
                simp only [hs y (by simp), Bool.false_eq_true, if_false]
                exact ih _ _ (fun z hz => hs z (by simp [hz])) r
          exact key ys B.cell 0 hn _ this
        cases hc : DA.assignLoop B.cap left B.cell 0 (ys.map conv) with
        | ub => rfl
        | exn c => exact absurd hc (hne c)
        | ok c => rfl
    · simp only [if_neg h1]
      by_cases hlo : lo = 0
      · simp only [if_pos hlo]
        cases DA.moveFrom h o with
        | none => rfl
        | some h' => rfl
      · simp only [if_neg hlo]

/-- **C59** (without exceptions from the elements, for which see `C57_exception_violated`): a dynamic array made from an rvalue container
owns the elements of the container in order, in storage of its own, and the container is empty. If the size is not in the range of the
size type or the allocation fails, there is no array, nothing is allocated and the container is as it was. -/
theorem C59_from_rvalue_partial {conv : U → Item V} {d : Donor U} {ys : List U} (hd : d.Holds ys) (hn : ∀ y ∈ ys, (conv y).throws = false)
    (lo hi : Nat) {h : Heap V} (hf : Fresh h) (al : Bool) :
    (lo ≤ ys.length ∧ ys.length ≤ hi ∧ al = false → ∃ d' h' o, DA.buildFrom conv lo hi h d al = .ok (d', h', o) ∧ d'.Holds [] ∧
      DRep h' o (.held (convAll conv ys) true) ∧ Frame (fun _ => False) h o.own h') ∧
    (¬ (lo ≤ ys.length ∧ ys.length ≤ hi ∧ al = false) → ∃ h' o, DA.buildFrom conv lo hi h d al = .exn (d, h', o) ∧
      Frame (fun _ => False) h (fun _ => False) h') := by
  have hall : (ys.map conv).all (fun it => !it.throws) = true := by
    rw [List.all_eq_true]
    intro it hit; obtain ⟨y, hy, rfl⟩ := List.mem_map.1 hit; simp [hn y hy]
  have hc : DAbs.copied lo hi (ys.map conv) al = if lo ≤ ys.length ∧ ys.length ≤ hi ∧ al = false then some (convAll conv ys) else none := by
    simp only [DAbs.copied, hall, List.length_map, and_true, List.map_map]
    rfl
  rw [buildFrom_eq hd hn]
  rcases build_spec (lo := lo) (hi := hi) hf (ys.map conv) al with ⟨xs, h', o, e0, e1, r1, f1⟩ | ⟨h', o, e0, e1, f1⟩
  · rw [hc] at e0
    refine ⟨fun hp => ?_, fun hp => ?_⟩
    · rw [if_pos hp] at e0
      cases e0
      exact ⟨d.emptied, h', o, by rw [e1]; rfl, d.emptied_holds, r1, f1⟩
    · rw [if_neg hp] at e0; cases e0
  · rw [hc] at e0
    refine ⟨fun hp => ?_, fun hp => ?_⟩
    · rw [if_pos hp] at e0; cases e0
    · exact ⟨h', o, by rw [e1]; rfl, f1⟩

/-- **C59** (without exceptions from the elements): assigning an rvalue container to a dynamic array does to the array what assigning its
elements does (the specification of `C59_history_partial`), and the container is empty, or as it was if the assignment throws. -/
theorem C59_assign_rvalue_partial {conv : U → Item V} {d : Donor U} {ys : List U} (hd : d.Holds ys) (hn : ∀ y ∈ ys, (conv y).throws = false)
    {lo hi : Nat} {w : DWorld V} {A : Nat → Option (DAbs V)} (r : DRel w A) {i : Nat} {o : DA} {a : DAbs V} (ho : w.obj i = some o) (ha : A i = some a)
    (al : Bool) (left : V) :
    ∃ d' r', DA.assignFrom conv lo hi w.heap o d al left = Out.of (DAbs.reassign lo hi A i (ys.map conv) al left).2 (d', r') ∧
      d'.Holds (if (DAbs.reassign lo hi A i (ys.map conv) al left).2 then ys else []) ∧
      DRel (w.set r'.1 i (some r'.2)) (DAbs.reassign lo hi A i (ys.map conv) al left).1 := by
  obtain ⟨w', e, hr⟩ := assign_spec (lo := lo) (hi := hi) r ho ha (ys.map conv) al left
  rw [assignFrom_eq hd hn]
  cases hb : (DAbs.reassign lo hi A i (ys.map conv) al left).2 with
  | false =>
    rw [hb] at e
    cases hx : DA.assign lo hi w.heap o (ys.map conv) al left with
    | ub => rw [hx] at e; cases e
    | exn s => rw [hx] at e; cases e
    | ok s =>
      rw [hx] at e
      refine ⟨d.emptied, s, rfl, d.emptied_holds, ?_⟩
      simp only [DWorld.changed, Out.of, Out.ok.injEq, Bool.false_eq_true, if_false] at e
      rw [e]; exact hr
  | true =>
    rw [hb] at e
    cases hx : DA.assign lo hi w.heap o (ys.map conv) al left with
    | ub => rw [hx] at e; cases e
    | ok s => rw [hx] at e; cases e
    | exn s =>
      rw [hx] at e
      refine ⟨d, s, rfl, hd, ?_⟩
      simp only [DWorld.changed, Out.of, Out.exn.injEq, if_true] at e
      rw [e]; exact hr

/-- A container of three elements that can be converted, and room for them. -/
example : ∃ d' h' o, DA.buildFrom (fun u : Nat => ⟨u * 10, false⟩) 0 100 ⟨fun _ => none, 0⟩ ⟨3, fun k => [1, 2, 3][k]?, 3⟩ false = .ok (d', h', o) ∧
    d'.Holds [] ∧ DRep h' o (.held [10, 20, 30] true) := by
  obtain ⟨d', h', o, e, h1, h2, -⟩ := (C59_from_rvalue_partial (conv := fun u : Nat => ⟨u * 10, false⟩) (d := ⟨3, fun k => [1, 2, 3][k]?, 3⟩) (ys := [1, 2, 3])
    ⟨rfl, rfl, by decide⟩ (fun _ _ => rfl) 0 100 (h := ⟨fun _ => none, 0⟩) (fun _ _ => rfl) false).1 (by decide)
  exact ⟨d', h', o, e, h1, h2⟩

end Verif.Containers
