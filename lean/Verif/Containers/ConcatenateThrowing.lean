import Verif.Containers.FromThrowingView

/-!
# `concatenate` and `assign` of views whose functions throw

`concatenate<Result>(views...)` goes through each view that does not know its size four times: to add up the sizes, to look for storage that can be reused, to count the
elements that are about to be appended, and to copy them. The functions of the views keep a state and can throw in each pass, at any call.
-/

namespace Verif.Containers

open Verif Verif.Views Verif.Views.Calling Lawful

variable {V O τ : Type} {I : Impl V O} {mn : Nat} {mkA : Bool} {L : Lawful I mn mkA}

/-! ## Model -/

/-- An argument: a view, the size if it knows it, and how the elements of the result are made of its elements. -/
structure ViewArg (V τ : Type) where
  {elem : Type}
  view : PipeC τ elem
  size? : Option Nat
  conv : elem → Item V

/-- source/containers/algorithms/concatenate.cpp 123 and 128-129 with 70: `linear_size` of each argument, added up. No argument is a container of the type of the result, so
lines 65-69 do not apply. Simplification: line 123 does not say in which order its operands are evaluated; here it is the order of the arguments. -/
def countViews (D : Nat) : List (ViewArg V τ) → Act τ Nat
  | [] => .pure 0
  | a :: rest => (viewSizeC D a.view a.size?).bind fun n => (countViews D rest).bind fun m => .pure (n + m)

namespace Impl

/-- source/containers/append_into_capacity.cpp 35-40: `append_into_capacity(target, view)` for a view that can be gone through more than once. -/
def appendIntoCapacityC (I : Impl V O) (D : Nat) (a : ViewArg V τ) (h : Heap V) (o : O) (t : τ) : Out (Heap V × O) :=
  match viewSizeC D a.view a.size? t with
  | .ub => .ub
  | .exn _ => .exn (h, o)
  | .ok n t =>
    match I.copyFromC D a.view a.conv t h o (I.size o) with
    | .ub => .ub
    | .exn r => .exn r
    | .ok r => I.finish (some r) (I.size o + n)

/-- source/containers/algorithms/concatenate.cpp 146: the views in order. Simplification: `states i` is the state of the functions when the view number `i` is appended; it is
arbitrary, where in the code it is the one that the previous view has left. -/
def appendViewsC (I : Impl V O) (D : Nat) (states : Nat → τ) : Nat → List (ViewArg V τ) → Heap V → O → Out (Heap V × O)
  | _, [], h, o => .ok (h, o)
  | i, a :: rest, h, o =>
    match I.appendIntoCapacityC D a h o (states i) with
    | .ub => .ub
    | .exn r => .exn r
    | .ok (h', o') => appendViewsC I D states (i + 1) rest h' o'

/-- The end of the scope of the result of `concatenate` with an exception. -/
def dropResult (I : Impl V O) (h : Heap V) (o : O) : Out (Heap V × Option O) :=
  match I.dtor h o with
  | none => .ub
  | some h' => .exn (h', none)

/-- source/containers/algorithms/concatenate.cpp 146-147: the views are appended to the result, which is returned. -/
def fillResultC (I : Impl V O) (D : Nat) (views : List (ViewArg V τ)) (states : Nat → τ) (h : Heap V) (o : O) : Out (Heap V × Option O) :=
  match I.appendViewsC D states 0 views h o with
  | .ok (h', o') => .ok (h', some o')
  | .ub => .ub
  | .exn (h', o') => I.dropResult h' o'

/-- source/containers/algorithms/concatenate.cpp 122-148 `concatenate` if all arguments are views. `al` says which allocations fail: the default constructor of the result, then
`reserve`. An exception destroys the result, of which nothing is left. As in `concatenate`, a result without `reserve` compiles only if its capacity always suffices. -/
def concatenateC (I : Impl V O) (D : Nat) (views : List (ViewArg V τ)) (h : Heap V) (al : Nat → Bool) (t : τ) (states : Nat → τ) : Out (Heap V × Option O) :=
  match countViews D views t with
  | .ub => .ub
  | .exn _ => .exn (h, none)
  | .ok total t =>
    match countViews D views t with
    | .ub => .ub
    | .exn _ => .exn (h, none)
    | .ok _ _ =>
      match I.new h (al 0) with
      | .exn => .exn (h, none)
      | .ub => .ub
      | .ok (h1, o1) =>
        if I.reservable ∧ I.mx < total then .ub
        else
          match (if I.reservable then I.reserve h1 o1 total (al 1) else .ok (h1, o1)) with
          | .ub => .ub
          | .exn (h2, o2) => I.dropResult h2 o2
          | .ok (h2, o2) => I.fillResultC D views states h2 o2

/-- source/containers/assign.cpp 78-80: `assign(target, view)` for trivially copyable elements. -/
def assignTrivialC (I : Impl V O) (D : Nat) (a : ViewArg V τ) (h : Heap V) (o : O) (al : Nat → Bool) (t : τ) : Out (Heap V × O) :=
  match I.clear h o with
  | .ub => .ub
  | .exn r => .exn r
  | .ok (h1, o1) => I.assignC D a.view a.size? a.conv h1 o1 al t

end Impl

/-! ## Properties -/

namespace ViewArg

/-- The elements that are made of the elements of the view. -/
def elems (a : ViewArg V τ) : List V := a.view.denote.map fun x => (a.conv x).val

/-- The argument fits into memory, and if it says how many elements it has, that is right. -/
def Ok (D : Nat) (a : ViewArg V τ) : Prop := a.view.Fits D ∧ ∀ n, a.size? = some n → n = a.view.denote.length

/-- No function and no conversion throws. -/
def Never (a : ViewArg V τ) : Prop := a.view.Quiet ∧ ∀ x ∈ a.view.denote, (a.conv x).throws = false

/-- The conversion of an element throws. -/
def Always (a : ViewArg V τ) : Prop := ∃ x ∈ a.view.denote, (a.conv x).throws = true

end ViewArg

theorem countViews_post {D : Nat} : ∀ {views : List (ViewArg V τ)}, (∀ a ∈ views, a.Ok D) →
    Post (∀ a ∈ views, a.view.Quiet) (countViews D views) (· = (views.flatMap ViewArg.elems).length) := by
  intro views
  induction views with
  | nil => intro _; exact Post.pure rfl
  | cons a rest ih =>
    intro hok
    have h1 := viewSizeC_post a.view (hok a (by simp)).1 (hok a (by simp)).2
    refine Post.bind (Q := (· = a.view.denote.length)) (h1.mono (fun q => q a (by simp)) fun _ e => e) ?_
    intro n hn
    refine Post.bind (Q := (· = (rest.flatMap ViewArg.elems).length)) ((ih fun b hb => hok b (by simp [hb])).mono (fun q b hb => q b (by simp [hb])) fun _ e => e) ?_
    intro m hm
    exact Post.pure (by rw [hn, hm]; simp [ViewArg.elems])

theorem copyAt_room_throws [Inhabited V] {h : Heap V} {o : O} {xs : List V} {cap n : Nat} (r : L.Rep h o xs cap) (hc : xs.length + n ≤ cap) {its : List (Item V)}
    (h1 : noThrow its = false) (h2 : its.findIdx (·.throws) ≤ n) :
    ∃ h' o', I.copyAt h o xs.length its = .exn (h', o') ∧ L.Rep h' o' xs cap ∧ Frame (I.own o) h (I.own o') h' := by
  have hr2 := r.2
  have hnone : ∀ j, xs.length ≤ j → cells xs j = none := fun j hj => by simp [cells, hj]
  by_cases hn : n = 0
  · subst hn
    obtain ⟨h', o', e, v, -, fr⟩ := View.rewrite r.view
    exact ⟨h', o', by rw [copyAt_first h1 (Nat.le_zero.1 h2), e], rep_of v rfl rfl hr2, fr⟩
  · have t1 : noThrow (List.replicate n (thrower : Item V)) = false := by
      obtain ⟨m, rfl⟩ := Nat.exists_eq_succ_of_ne_zero hn
      simp [noThrow, List.replicate_succ, thrower]
    have t0 : noThrow (List.replicate n (⟨default, false⟩ : Item V)) = true := by simp [noThrow]
    obtain ⟨h0, o0, e0, -⟩ := r.view.copyAt (pos := xs.length) (src := List.replicate n (⟨default, false⟩ : Item V)) (by simpa using hc) (fun j hj _ => hnone j hj)
    obtain ⟨h', o', e, v, -, fr⟩ := r.view.copyAt (pos := xs.length) (src := List.replicate n (thrower : Item V)) (by simpa using hc) (fun j hj _ => hnone j hj)
    rw [t1] at e v
    refine ⟨h', o', ?_, rep_of v rfl rfl hr2, fr⟩
    rw [copyAt_swap hn (B0 := List.replicate n ⟨default, false⟩) (by simp) t0 h1 h2 (by simp) t1 h o _ (by rw [e0, t0]; simp [Out.of]), e]
    rfl

theorem appendIntoCapacityC_eq [Inhabited V] {h : Heap V} {o : O} {xs : List V} {cap D : Nat} (r : L.Rep h o xs cap) (a : ViewArg V τ) (ha : a.Ok D)
    (hc : xs.length + a.elems.length ≤ cap) (t : τ) :
    ∃ fails h' o', (a.Never → fails = false) ∧ (a.Always → fails = true) ∧ I.appendIntoCapacityC D a h o t = Out.of fails (h', o') ∧
      (fails = false → L.Rep h' o' (xs ++ a.elems) cap) ∧ (fails = true → L.Rep h' o' xs cap) ∧ Frame (I.own o) h (I.own o') h' := by
  have hz := viewSizeC_post a.view ha.1 ha.2 t
  have hs : I.size o = xs.length := r.1.2.2
  have hl : a.elems.length = a.view.denote.length := by simp [ViewArg.elems]
  have hnone : ∀ j, xs.length ≤ j → cells xs j = none := fun j hj => by simp [cells, hj]
  simp only [Impl.appendIntoCapacityC, hs]
  cases e : viewSizeC D a.view a.size? t with
  | ub => rw [e] at hz; exact hz.elim
  | exn t1 =>
    rw [e] at hz
    exact ⟨true, h, o, fun q => absurd q.1 hz, fun _ => rfl, rfl, fun f => by simp at f, fun _ => r, Frame.refl _ _⟩
  | ok n t1 =>
    rw [e] at hz
    have hz : n = a.view.denote.length := hz
    subst hz
    obtain ⟨its, hm, ec⟩ := copyFromC_eq (I := I) a.view ha.1 a.conv t1
    simp only [ec]
    rcases hm.cases with rfl | ⟨g1, g2, g3⟩
    · obtain ⟨h', o', e1, v, eo, fr⟩ := r.view.copyAt (pos := xs.length) (src := a.view.denote.map a.conv) (by simpa using (by omega : xs.length + a.view.denote.length ≤ cap))
        (fun j hj _ => hnone j hj)
      cases hn : noThrow (a.view.denote.map a.conv) with
      | false =>
        rw [hn] at e1 v
        simp only [Bool.not_false, Bool.false_eq_true, if_false] at e1 v
        refine ⟨true, h', o', fun q => ?_, fun _ => rfl, by rw [e1]; rfl, fun f => by simp at f, fun _ => rep_of v rfl rfl r.2, fr⟩
        have : noThrow (a.view.denote.map a.conv) = true := by simpa [noThrow] using q.2
        simp [this] at hn
      | true =>
        rw [hn] at e1 v
        simp only [Bool.not_true, if_true] at e1 v
        have hw : written (cells xs) xs.length (vals (a.view.denote.map a.conv)) = cells (xs ++ a.elems) := by
          rw [written_cells]; simp [vals, ViewArg.elems, Function.comp_def]
        rw [hw] at v
        obtain ⟨o2, e2, v2, e3⟩ := v.finish (n' := xs.length + a.view.denote.length) (by omega)
        refine ⟨false, h', o2, fun _ => rfl, fun q => ?_, by rw [e1]; exact e2, fun _ => rep_of v2 rfl (by simp [hl]) (by simpa using hc), fun f => by simp at f, by rw [e3]; exact fr⟩
        obtain ⟨x, hx, hq⟩ := q
        have : ∀ x ∈ a.view.denote, (a.conv x).throws = false := by simpa [noThrow] using hn
        simp [this x hx] at hq
    · obtain ⟨h', o', e1, r1, fr⟩ := copyAt_room_throws r (n := a.view.denote.length) (by omega) g2 g3
      exact ⟨true, h', o', fun q => absurd q.1 g1, fun _ => rfl, by rw [e1]; rfl, fun f => by simp at f, fun _ => r1, fr⟩

theorem appendViewsC_eq [Inhabited V] {cap D : Nat} (states : Nat → τ) : ∀ (views : List (ViewArg V τ)) {h : Heap V} {o : O} {xs : List V} (i : Nat), L.Rep h o xs cap →
    (∀ a ∈ views, a.Ok D) → xs.length + (views.flatMap ViewArg.elems).length ≤ cap →
    ∃ fails h' o' ys, ((∀ a ∈ views, a.Never) → fails = false) ∧ ((∃ a ∈ views, a.Always) → fails = true) ∧ I.appendViewsC D states i views h o = Out.of fails (h', o') ∧
      L.Rep h' o' ys cap ∧ (fails = false → ys = xs ++ views.flatMap ViewArg.elems) ∧ Frame (I.own o) h (I.own o') h' := by
  intro views
  induction views with
  | nil =>
    intro h o xs i r _ _
    exact ⟨false, h, o, xs, fun _ => rfl, fun q => by simp at q, rfl, r, fun _ => by simp, Frame.refl _ _⟩
  | cons a rest ih =>
    intro h o xs i r hok hc
    simp only [List.flatMap_cons, List.length_append] at hc
    obtain ⟨fails, h1, o1, n1, n2, e1, r1, r2, f1⟩ := appendIntoCapacityC_eq r a (hok a (by simp)) (by omega) (states i)
    simp only [Impl.appendViewsC, e1]
    cases fails with
    | true => exact ⟨true, h1, o1, xs, fun q => absurd (n1 (q a (by simp))) (by simp), fun _ => rfl, rfl, r2 rfl, fun f => by simp at f, f1⟩
    | false =>
      obtain ⟨fails, h2, o2, ys, m1, m2, e2, r3, m3, f2⟩ := ih (i + 1) (r1 rfl) (fun b hb => hok b (by simp [hb])) (by simp only [List.length_append]; omega)
      refine ⟨fails, h2, o2, ys, fun q => m1 fun b hb => q b (by simp [hb]), fun q => ?_, e2, r3, fun f => by rw [m3 f]; simp, f1.trans f2⟩
      obtain ⟨b, hb, q⟩ := q
      rcases List.mem_cons.1 hb with rfl | hb
      · exact absurd (n2 q) (by simp)
      · exact m2 ⟨b, hb, q⟩

theorem dropResult_eq {h0 h : Heap V} {o : O} {ys : List V} {cap : Nat} (r : L.Rep h o ys cap) (fr : Frame (fun _ => False) h0 (I.own o) h) :
    ∃ h', I.dropResult h o = .exn (h', none) ∧ ∀ b, h'.blk b = h0.blk b := by
  obtain ⟨h', e, f2⟩ := L.dtor_law (xs := ys) r.1.1 (by rw [r.mem]; rfl) r.1.2.2 (by rw [r.mem]; exact r.2)
  exact ⟨h', by simp only [Impl.dropResult, e], fun b => (fr.trans f2).keep b id id⟩

/-- **C120**: `concatenate` of any number of views, whose functions may throw at any call of any of the passes and whose elements may throw when they are converted. Nothing
undefined happens. Either the result is a new container with the elements of all views, once each and in order, or the call throws and all memory is as it was: nothing is
leaked. It throws only if a function, a conversion or an allocation does, and always if a conversion does. Missing: more elements than the greatest size (for a
container that can reserve, C25), arguments of the type of the result, whose storage may be reused (C49), and views that can be gone through only once. -/
theorem C120_concatenate_partial [Inhabited V] {h : Heap V} {D : Nat} (hf : Fresh h) (views : List (ViewArg V τ)) (hok : ∀ a ∈ views, a.Ok D) (al : Nat → Bool) (t : τ)
    (states : Nat → τ) (hmx : I.reservable = true → (views.flatMap ViewArg.elems).length ≤ I.mx)
    (hcap : I.reservable = false → (views.flatMap ViewArg.elems).length ≤ mn) :
    (∃ h' o' cap, I.concatenateC D views h al t states = .ok (h', some o') ∧ L.Rep h' o' (views.flatMap ViewArg.elems) cap ∧ Frame (fun _ => False) h (I.own o') h' ∧
      ¬ (∃ a ∈ views, a.Always)) ∨
    (∃ h', I.concatenateC D views h al t states = .exn (h', none) ∧ (∀ b, h'.blk b = h.blk b) ∧
      ¬ ((∀ a ∈ views, a.Never) ∧ al 0 = false ∧ al 1 = false)) := by
  have hq : ∀ {P : Prop}, ¬ (∀ a ∈ views, a.view.Quiet) → ¬ ((∀ a ∈ views, a.Never) ∧ P) := fun h q => h fun a ha => (q.1 a ha).1
  have hz := countViews_post hok
  obtain ⟨xs, hxs⟩ : ∃ xs, views.flatMap ViewArg.elems = xs := ⟨_, rfl⟩
  rw [hxs] at hz hmx hcap ⊢
  simp only [Impl.concatenateC]
  have hz1 := hz t
  cases e : countViews D views t with
  | ub => rw [e] at hz1; exact hz1.elim
  | exn t1 => rw [e] at hz1; exact .inr ⟨h, rfl, fun _ => rfl, hq hz1⟩
  | ok total t1 =>
    rw [e] at hz1
    have hz1 : total = xs.length := hz1
    subst hz1
    have hz2 := hz t1
    cases e2 : countViews D views t1 with
    | ub => rw [e2] at hz2; exact hz2.elim
    | exn t2 => rw [e2] at hz2; simp only [e2]; exact .inr ⟨h, rfl, fun _ => rfl, hq hz2⟩
    | ok n2 t2 =>
      simp only [e2]
      by_cases hm : (mkA && al 0) = true
      · obtain ⟨m1, m2⟩ : mkA = true ∧ al 0 = true := by simpa using hm
        rw [m2, L.mk_exn m1]
        exact .inr ⟨h, rfl, fun _ => rfl, fun q => by simp at q⟩
      · obtain ⟨h1, o1, en, w1, m1, s1, f1, -⟩ := L.mk_ok (h := h) (f := al 0) hf (by simpa using hm)
        have r1 : L.Rep h1 o1 [] mn := ⟨⟨w1, by rw [m1]; simp, s1⟩, by simp⟩
        have hfit : ¬ (I.reservable = true ∧ I.mx < xs.length) := fun q => absurd (hmx q.1) (by omega)
        simp only [en, if_neg hfit]
        -- from here on the result has room
        have rest : ∀ {h2 : Heap V} {o2 : O} {cap : Nat}, L.Rep h2 o2 [] cap → Frame (fun _ => False) h (I.own o2) h2 → xs.length ≤ cap → ∀ q, q = I.fillResultC D views states h2 o2 →
            (∃ h' o' cap, q = .ok (h', some o') ∧ L.Rep h' o' xs cap ∧ Frame (fun _ => False) h (I.own o') h' ∧ ¬ (∃ a ∈ views, a.Always)) ∨
            (∃ h', q = .exn (h', none) ∧ (∀ b, h'.blk b = h.blk b) ∧ ¬ ((∀ a ∈ views, a.Never) ∧ al 0 = false ∧ al 1 = false)) := by
          intro h2 o2 cap r2 f2 hc q hqe
          subst hqe
          obtain ⟨fails, h3, o3, ys, n1, n2, e3, r3, hy, f3⟩ := appendViewsC_eq states views 0 r2 hok (by rw [hxs]; simpa using hc)
          simp only [Impl.fillResultC, e3]
          cases fails with
          | false =>
            have hy := hy rfl
            rw [hxs, List.nil_append] at hy
            subst hy
            exact .inl ⟨h3, o3, cap, rfl, r3, f2.trans f3, fun q => absurd (n2 q) (by simp)⟩
          | true =>
            obtain ⟨h', e4, hb⟩ := dropResult_eq r3 (f2.trans f3)
            exact .inr ⟨h', e4, hb, fun q => absurd (n1 q.1) (by simp)⟩
        cases hr : I.reservable with
        | false => exact rest r1 f1 (hcap hr) _ (by simp)
        | true =>
          simp only [if_true]
          have g := good_reserve r1 (f1.fresh hf) xs.length (al 1) (hmx hr) hr
          obtain ⟨h2, o2, e4, r4, f4, -⟩ := g
          rw [e4]
          simp only [GOp.spec] at r4 ⊢
          by_cases hc : xs.length ≤ mn
          · simp only [if_pos hc] at r4 ⊢
            exact rest r4 (f1.trans f4) hc _ rfl
          · simp only [if_neg hc] at r4 ⊢
            cases ha : al 1 with
            | false =>
              rw [ha] at rest
              simp only [ha, Bool.false_eq_true, if_false] at r4 ⊢
              simp only [and_true] at rest ⊢
              exact rest r4 (f1.trans f4) (Nat.le_refl _) _ rfl
            | true =>
              simp only [ha, if_true] at r4 ⊢
              obtain ⟨h', e5, hb⟩ := dropResult_eq r4 (f1.trans f4)
              exact .inr ⟨h', e5, hb, fun q => by simp at q⟩

/-- **C119**, `assign` of such a view to a container of trivially copyable elements that can reserve: the container has all elements of the view, once each and in order, whatever
it had before, or the call throws and it is empty. It never has less capacity than before. Missing: more elements than the greatest size, and an allocation that fails (C25). -/
theorem C119_assign_partial [Inhabited V] {h : Heap V} {o : O} {xs : List V} {cap D : Nat} (r : L.Rep h o xs cap) (hf : Fresh h) (hr : I.reservable = true) (a : ViewArg V τ)
    (ha : a.Ok D) (al : Nat → Bool) (t : τ) (hm : a.elems.length ≤ I.mx) (hal : cap < a.elems.length → al 0 = false) :
    ∃ fails cap', MayFail a.view a.conv fails ∧ cap ≤ cap' ∧ Good L h o (I.assignTrivialC D a h o al t) ((if fails then [] else a.elems, cap'), fails) := by
  have hl : a.elems.length = a.view.denote.length := by simp [ViewArg.elems]
  obtain ⟨h1, o1, e1, r1, f1, p1⟩ := good_clear r
  obtain ⟨fails, cap', m, hc, h2, o2, e2, r2, f2, p2⟩ := C119_construct_partial r1 (f1.fresh hf) hr a.view ha.1 ha.2 a.conv al t (hl ▸ hm) (fun q => hal (hl ▸ q))
  refine ⟨fails, cap', m, hc, h2, o2, ?_, r2, f1.trans f2, rule_trans r r1 p1 p2⟩
  simp only [Impl.assignTrivialC, e1]
  exact e2

/-- What is in the result and whether the call throws, and how many of the first ten blocks are allocated. -/
def shownCat (r : Out (Heap Nat × Option (Hdr Nat))) : Option (Option (List (Option Nat)) × Bool × Nat) :=
  let blocks (h : Heap Nat) := ((List.range 10).filter fun b => (h.blk b).isSome).length
  let elems (h : Heap Nat) (o : Hdr Nat) := (List.range o.size).map ((vec Nat 0 99).mem h o).2
  match r with
  | .ok (h, o) => some (o.map (elems h), false, blocks h)
  | .exn (h, o) => some (o.map (elems h), true, blocks h)
  | .ub => none

/-- Two views that have to be counted, and a list between them whose size is known. Each pass calls the predicate once for each view. -/
def threeArgs : List (ViewArg Nat Nat) := [⟨.filter oddFn (.elements [1]), none, plain⟩, ⟨.elements [8, 8], some 2, plain⟩, ⟨.filter oddFn (.elements [7]), none, plain⟩]

example : (∀ a ∈ threeArgs, a.Ok 100) ∧ threeArgs.flatMap ViewArg.elems = [1, 8, 8, 7] :=
  ⟨by simp [threeArgs, ViewArg.Ok, PipeC.Fits, PipeC.denote], by decide +kernel⟩

/-- These arguments and a vector of at most nine elements meet the hypotheses. -/
example (al : Nat → Bool) (t : Nat) (states : Nat → Nat) :=
  C120_concatenate_partial (L := (Vec.lawful 0 9 (by decide) : Lawful (vec Nat 0 9) 0 _)) (h := ⟨fun _ => none, 0⟩) (D := 100) (fun _ _ => rfl) threeArgs
    (by simp [threeArgs, ViewArg.Ok, PipeC.Fits, PipeC.denote]) al t states (fun _ => by decide +kernel) (fun e => by cases e)

/-- The call 6 of the predicate throws. The two passes that count start with each of the calls 0, ..., 6 in turn: they need four calls. -/
example :
    [0, 1, 2, 3, 4, 5, 6].map (fun t => shownCat ((vec Nat 0 99).concatenateC 100 threeArgs ⟨fun _ => none, 0⟩ noFail t fun _ => 0)) =
      List.replicate 3 (some (some [some 1, some 8, some 8, some 7], false, 1)) ++ List.replicate 4 (some (none, true, 0)) := by decide +kernel

/-- The call throws when the last view is counted once more, when it is copied, and when the first one is copied; and an allocation fails. -/
example :
    [(2, 6), (2, 5), (0, 5)].map (fun (k, s) => shownCat ((vec Nat 0 99).concatenateC 100 threeArgs (aliasHeap 5).1 noFail 0 fun i => if i = k then s else 0)) =
      List.replicate 3 (some (none, true, 1)) := by decide +kernel

example :
    [1, 2].map (fun k => shownCat ((vec Nat 0 99).concatenateC 100 threeArgs (aliasHeap 5).1 (fun i => i == k) 0 fun _ => 0)) =
      [some (none, true, 1), some (some [some 1, some 8, some 8, some 7], false, 2)] := by decide +kernel

/-- `assign` of a view to a vector of three elements, which has room or not. -/
example :
    [9, 3].map (fun cap => [0, 4].map fun t => shownC (vec Nat 0 99) ((vec Nat 0 99).assignTrivialC 100 ⟨.concat (.elements [2, 2]) twoOdd, none, plain⟩ (aliasHeap cap).1 (aliasHeap cap).2 noFail t)) =
      List.replicate 2 [some ([some 2, some 2, some 1, some 5], false), some ([], true)] := by decide +kernel

end Verif.Containers
