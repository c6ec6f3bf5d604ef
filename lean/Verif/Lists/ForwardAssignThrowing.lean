import Verif.Lists.AssignThrowing

/-!
# Assignment of views whose functions throw to singly linked lists

As `Verif.Lists.AssignThrowing`, with the last element that was assigned to as the position that is kept.
-/

namespace Verif.Lists

open Verif Verif.Views Verif.Views.Calling Verif.Containers

variable {V τ σ ρ : Type}

/-! ## Model -/

namespace FHeap

/-- `copy_truncate_after` (source/containers/algorithms/copy.cpp 44-56, 75-98) of a view to the elements from `it` on, as `FHeap.copyTruncateAfter`; see
`LHeap.copyTruncateC`. `before` is the last element assigned to. -/
def copyTruncateC (left : V) (r : RngC τ σ ρ) (conv : ρ → Item V) : Nat → FHeap V → Nat → Option Nat → σ → τ → Out (FHeap V × Nat × σ × τ)
  | 0, _, _, _, _, _ => .ub
  | f + 1, h, before, it, s, t =>
    match r.atEnd s t with
    | .ub => .ub
    | .exn t => .exn (h, before, s, t)
    | .ok true t => .ok (h, before, s, t)
    | .ok false t =>
      match it with
      | none => .ok (h, before, s, t)
      | some it =>
        match r.deref s t with
        | .ub => .ub
        | .exn t => .exn (h, before, s, t)
        | .ok x t =>
          match h.setVal it (if (conv x).throws then left else (conv x).val) with
          | none => .ub
          | some h =>
            if (conv x).throws then .exn (h, before, s, t)
            else
              match r.next s t with
              | .ub => .ub
              | .exn t => .exn (h, it, s, t)
              | .ok s t =>
                match h.nextOf it with
                | none => .ub
                | some nx => copyTruncateC left r conv f h it nx s t

/-- `assign` of a view (source/containers/assign.cpp 74-77): `copy_truncate_after`, `erase_after`, and `append_after` of the rest of the view. -/
def assignViewC (h : FHeap V) (l : Nat) (left : V) (D : Nat) (p : PipeC τ ρ) (conv : ρ → Item V) (noMem : Nat → Bool) (t : τ) : Out (FHeap V) :=
  match p.build D t with
  | .ub => .ub
  | .exn _ => .exn h
  | .ok B t =>
    match h.nextOf l with
    | none => .ub
    | some first =>
      match copyTruncateC left B.ops conv (D + 1) h l first B.first t with
      | .ub => .ub
      | .exn (h, _) => .exn h
      | .ok (h, out, s, t) =>
        match h.eraseRange out none with
        | none => .ub
        | some h =>
          match feedC FHeap.pushAfter B.ops conv noMem (D + 1) 0 (h, out) s t with
          | .ok q => .ok q.1
          | .exn q => .exn q.1
          | .ub => .ub

end FHeap

/-! ## Proofs -/

theorem fcopyTruncateC_op {quiet : Prop} {r : RngC τ σ ρ} {conv : ρ → Item V} (noMem : Nat → Bool) (left : V) (next : Nat) {l : Nat} :
    ∀ {ys : List ρ} {s : σ}, VisitsC quiet r s ys → ∀ {f : Nat}, ys.length < f → ∀ {h : FHeap V} {A : Abs V} {P Q : List (Nat × V)},
    FRel h A → A.lists l = some (P ++ Q) → ∀ t,
    (∃ h' z zs, FHeap.copyTruncateC left r conv f h (lastId l P) (startOf (ids Q) none) s t = .exn (h', z) ∧ Partly quiet noMem left next Q (ys.map conv) zs ∧
      FRel h' (A.set l (P ++ zs))) ∨
    ∃ h' s' t', FHeap.copyTruncateC left r conv f h (lastId l P) (startOf (ids Q) none) s t = .ok (h', lastId l (P ++ overwrite Q (ys.map fun x => (conv x).val)), s', t') ∧
      VisitsC quiet r s' (ys.drop Q.length) ∧ (∀ x ∈ ys.take Q.length, (conv x).throws = false) ∧
      FRel h' (A.set l (P ++ (overwrite Q (ys.map fun x => (conv x).val) ++ Q.drop ys.length))) := by
  have hstart : ∀ (vs : List (Item V)) (Q : List (Nat × V)), ¬ quiet → Partly quiet noMem left next Q vs Q := fun vs Q hq => by
    simpa [overwrite] using Partly.reading (noMem := noMem) (left := left) (next := next) (xs := Q) (vs := vs) 0 (Nat.zero_le _) (Nat.zero_le _) (by simp) hq
  intro ys
  induction ys with
  | nil =>
    intro s v f hf h A P Q hr hl t
    obtain ⟨f, rfl⟩ : ∃ g, f = g + 1 := ⟨f - 1, by omega⟩
    have h0 := v t
    cases e : r.atEnd s t with
    | ub => rw [e] at h0; exact h0.elim
    | exn t1 =>
      rw [e] at h0
      exact .inl ⟨h, _, Q, by simp only [FHeap.copyTruncateC, e]; rfl, hstart _ _ h0, by rw [Abs.set_self hl]; exact hr⟩
    | ok b t1 =>
      rw [e] at h0
      have h0 : b = true := h0
      subst h0
      refine .inr ⟨h, s, t1, by simp only [FHeap.copyTruncateC, e, overwrite, List.map_nil, List.zipWith_nil_right, List.append_nil], by simpa using v, by simp, ?_⟩
      simp only [overwrite, List.map_nil, List.zipWith_nil_right, List.length_nil, List.drop_zero, List.nil_append]
      rw [Abs.set_self hl]
      exact hr
  | cons x ys ih =>
    intro s v f hf h A P Q hr hl t
    obtain ⟨h1, h2, s', h3, h4⟩ := id v
    obtain ⟨f, rfl⟩ : ∃ g, f = g + 1 := ⟨f - 1, by omega⟩
    have h1 := h1 t
    cases e1 : r.atEnd s t with
    | ub => rw [e1] at h1; exact h1.elim
    | exn t1 =>
      rw [e1] at h1
      exact .inl ⟨h, _, Q, by simp only [FHeap.copyTruncateC, e1]; rfl, hstart _ _ h1, by rw [Abs.set_self hl]; exact hr⟩
    | ok b t1 =>
      rw [e1] at h1
      have h1 : b = false := h1
      subst h1
      cases Q with
      | nil =>
        refine .inr ⟨h, s, t1, by simp [FHeap.copyTruncateC, e1, startOf, overwrite], by simpa using v, by simp, ?_⟩
        simp only [overwrite, List.zipWith_nil_left, List.drop_nil, List.append_nil]
        rw [Abs.set_self (by simpa using hl)]
        exact hr
      | cons y Q =>
        obtain ⟨i, u⟩ := y
        have hid : startOf (ids ((i, u) :: Q)) none = some i := rfl
        rw [hid]
        have h2 := h2 t1
        cases e2 : r.deref s t1 with
        | ub => rw [e2] at h2; exact h2.elim
        | exn t2 =>
          rw [e2] at h2
          exact .inl ⟨h, _, (i, u) :: Q, by simp only [FHeap.copyTruncateC, e1, e2]; rfl, hstart _ _ h2, by rw [Abs.set_self hl]; exact hr⟩
        | ok z t2 =>
          rw [e2] at h2
          have h2 : z = x := h2
          subst h2
          cases ht : (conv z).throws with
          | true =>
            obtain ⟨g1, e3, _, _, r1⟩ := fsetVal_spec (w := left) hr hl
            refine .inl ⟨g1, _, (i, left) :: Q, by simp only [FHeap.copyTruncateC, e1, e2, ht, if_true, e3]; rfl, ?_, r1⟩
            simpa [overwrite] using Partly.assigning (quiet := quiet) (noMem := noMem) (left := left) (next := next) (xs := (i, u) :: Q) (vs := (z :: ys).map conv) 0 (i, u) Q
              (conv z) rfl (by simp) (by simp) ht
          | false =>
            obtain ⟨g1, e3, _, _, r1⟩ := fsetVal_spec (w := (conv z).val) hr hl
            have hl1 : (A.set l (P ++ (i, (conv z).val) :: Q)).lists l = some (P ++ (i, (conv z).val) :: Q) := by simp [Abs.set]
            have hnx : g1.nextOf i = some (startOf (ids Q) none) := by
              have hp := FRel.path r1 hl1
              rw [ids, List.map_append, path_append] at hp
              exact (path_cons_tail.1 (show PathTo g1.nextOf i (ids Q) none from hp.2)).1
            have hlast : lastId l (P ++ [(i, (conv z).val)]) = i := by simp [lastId, ids]
            have h3 := h3 t2
            cases e4 : r.next s t2 with
            | ub => rw [e4] at h3; exact h3.elim
            | exn t3 =>
              rw [e4] at h3
              refine .inl ⟨g1, _, (i, (conv z).val) :: Q, by simp only [FHeap.copyTruncateC, e1, e2, ht, Bool.false_eq_true, if_false, e3, e4]; rfl, ?_, r1⟩
              exact (hstart _ Q h3).cons (i, u) ht
            | ok s2 t3 =>
              rw [e4] at h3
              have h3 : s2 = s' := h3
              subst h3
              have hstep : FHeap.copyTruncateC left r conv (f + 1) h (lastId l P) (some i) s t =
                  FHeap.copyTruncateC left r conv f g1 (lastId l (P ++ [(i, (conv z).val)])) (startOf (ids Q) none) s2 t3 := by
                simp only [hlast, FHeap.copyTruncateC, e1, e2, ht, Bool.false_eq_true, if_false, e3, e4, hnx]
              rw [hstep]
              rcases ih h4 (f := f) (by simpa using hf) (P := P ++ [(i, (conv z).val)]) (Q := Q) r1 (by simp) t3 with
                ⟨h', w, zs, a1, a2, a3⟩ | ⟨h', s3, t4, a1, a2, a3, a4⟩
              · refine .inl ⟨h', w, (i, (conv z).val) :: zs, a1, a2.cons (i, u) ht, ?_⟩
                simp only [Abs.set, upd_upd, List.append_assoc] at a3 ⊢
                exact a3
              · refine .inr ⟨h', s3, t4, ?_, a2, ?_, ?_⟩
                · rw [a1]
                  simp only [overwrite, List.map_cons, List.zipWith_cons_cons, List.append_assoc, List.singleton_append]
                · intro x hx
                  rw [List.length_cons, List.take_succ_cons] at hx
                  rcases List.mem_cons.1 hx with rfl | hx
                  · exact ht
                  · exact a3 x hx
                · simp only [Abs.set, upd_upd, List.append_assoc, overwrite, List.map_cons, List.zipWith_cons_cons, List.length_cons, List.drop_succ_cons] at a4 ⊢
                  exact a4

/-- **C121**, `assign` to a singly linked list, as `C121_assign`. -/
theorem C121_forward_assign {h : FHeap V} {A : Abs V} {l : Nat} {xs} (r : FRel h A) (hl : A.lists l = some xs) (left : V) {D : Nat} (p : PipeC τ ρ) (hp : p.Fits D)
    (conv : ρ → Item V) (noMem : Nat → Bool) (t : τ) :
    ∃ thrown h' zs used, h.assignViewC l left D p conv noMem t = Out.of thrown h' ∧ FRel h' ((A.set l zs).use used) ∧
      (thrown = false → zs = overwrite xs (p.denote.map fun x => (conv x).val) ++ number A.next ((p.denote.map fun x => (conv x).val).drop xs.length) ∧
        ∀ x ∈ p.denote, (conv x).throws = false) ∧
      (thrown = true → Partly p.Quiet noMem left A.next xs (p.denote.map conv) zs) := by
  have hb := C116_view p hp t
  have hD := p.length_le hp
  cases e : p.build D t with
  | ub => rw [e] at hb; exact hb.elim
  | exn t1 =>
    rw [e] at hb
    refine ⟨true, h, xs, 0, by simp only [FHeap.assignViewC, e, Out.of_true], by rw [Abs.set_self hl]; exact r, fun e => (by cases e), fun _ => ?_⟩
    simpa [overwrite] using Partly.reading (noMem := noMem) (left := left) (next := A.next) (xs := xs) (vs := p.denote.map conv) 0 (Nat.zero_le _) (Nat.zero_le _) (by simp) hb
  | ok B t1 =>
    rw [e] at hb
    have hfirst := (path_cons_tail.1 (r.path hl)).1
    have hct := fcopyTruncateC_op (conv := conv) noMem left A.next hb (f := D + 1) (by omega) (P := []) (Q := xs) r (by simpa using hl) t1
    have hlast : lastId l ([] : List (Nat × V)) = l := rfl
    rw [hlast] at hct
    rcases hct with ⟨h1, z, zs, a1, a2, a3⟩ | ⟨h1, s, t2, a1, a2, a3, a4⟩
    · exact ⟨true, h1, zs, 0, by simp only [FHeap.assignViewC, e, hfirst, a1, Out.of_true], a3, fun e => (by cases e), fun _ => a2⟩
    · simp only [List.nil_append] at a4 a1
      generalize hZ : overwrite xs (p.denote.map fun x => (conv x).val) = Z at a4 a1
      obtain ⟨h2, e2, r2⟩ := feraseRange_op (l := l) (P := Z) (M := xs.drop p.denote.length) (Q := []) a4 (by simp [Abs.set])
      have e2 : h1.eraseRange (lastId l Z) none = _ := e2
      simp only [Abs.set, upd_upd, List.append_nil] at r2
      have hlen : (p.denote.drop xs.length).length < D + 1 := by rw [List.length_drop]; omega
      obtain ⟨n, thrown, q3, e3, hP, tk⟩ := feedC_eq (S := FHeap V × Nat) (push := FHeap.pushAfter) (conv := conv)
        (P := fun q vs => q.2 = lastId l (Z ++ number A.next vs) ∧ FRel q.1 ((A.set l (Z ++ number A.next vs)).use vs.length)) (fun _ _ => rfl)
        (fun q vs v hq => by
          obtain ⟨hb, hr⟩ := hq
          obtain ⟨q', e, r'⟩ := finsert_spec (l := l) (P := Z ++ number A.next vs) (Q := []) hr (by simp [Abs.set, Abs.use]) v
          refine ⟨(q', q.1.next), by simp only [FHeap.pushAfter, FHeap.insertAfter, hb, e, ptr, Bool.false_eq_true, if_false], ?_, ?_⟩
          · rw [← number_snoc]
            have := hr.same
            simp [lastId, ids, Abs.use, Abs.set] at this ⊢
            omega
          · simp only [← number_snoc]
            simp only [Abs.set, Abs.use, upd_upd] at r' ⊢
            simpa [Nat.add_assoc] using r')
        a2 hlen (noMem := noMem) 0 (q := (h2, lastId l Z)) (vs := [])
        ⟨by simp only [number, List.append_nil], by simpa [number, Abs.set, Abs.use] using r2⟩ t2
      simp only [List.nil_append] at hP
      refine ⟨thrown, q3.1, _, _, ?_, hP.2, ?_, ?_⟩
      · simp only [FHeap.assignViewC, e, hfirst, a1, e2, e3]
        cases thrown <;> rfl
      · intro ht
        have hn := tk.all ht
        refine ⟨by rw [hn, List.take_length, ← hZ, List.map_drop], fun x hx => ?_⟩
        rw [← List.take_append_drop xs.length p.denote] at hx
        rcases List.mem_append.1 hx with hx | hx
        · exact a3 x hx
        · exact tk.good x (by rw [hn, List.take_length]; exact hx)
      · intro ht
        have := Partly.appending (quiet := p.Quiet) (noMem := noMem) (left := left) (next := A.next) (xs := xs) (vs := p.denote.map conv) n (by simpa using tk.le)
          (by
            intro v hv
            rw [← List.map_take, List.take_add] at hv
            obtain ⟨x, hx, rfl⟩ := List.mem_map.1 hv
            rcases List.mem_append.1 hx with hx | hx
            · exact a3 x hx
            · exact tk.good x hx)
          (fun i hi => by simpa using tk.mem i hi)
          (by
            rcases tk.cause ht with a | ⟨x, hx, a⟩ | ⟨hi, a⟩
            · exact .inl a
            · exact .inr (.inl ⟨conv x, by rw [List.getElem?_map, ← List.getElem?_drop, hx]; rfl, a⟩)
            · exact .inr (.inr ⟨by simpa using hi, by simpa using a⟩))
        have e1 : (p.denote.map conv).map (·.val) = p.denote.map fun x => (conv x).val := by rw [List.map_map]; rfl
        rw [e1, hZ, ← List.map_drop, ← List.map_take, List.map_map] at this
        exact this

/-! ## Cases -/

/-- What the singly linked list of `vs` holds after `assign` of the view of two elements. -/
def fassigned (vs : List Nat) (conv : Nat → Item Nat) (noMem : Nat → Bool) (t : Nat) : Option (Option (List Nat) × Bool) :=
  match (FHeap.start Nat).makeFrom vs none with
  | .ok h => match h.assignViewC 0 0 100 twoOdd conv noMem t with
    | .ok h => some (h.forward 0, false)
    | .exn h => some (h.forward 0, true)
    | .ub => none
  | _ => none

/-- `assign` of two elements to a list of none, one and three elements, which starts with the calls 3, ..., 6 of the predicate. -/
example : [3, 4, 5, 6].map (fassigned [] plain fun _ => false) =
    [some (some [1, 5], false), some (some [1, 5], true), some (some [1], true), some (some [], true)] := by decide +kernel
example : [3, 4, 5, 6].map (fassigned [7] plain fun _ => false) =
    [some (some [1, 5], false), some (some [1, 5], true), some (some [1], true), some (some [7], true)] := by decide +kernel
example : [3, 4, 5, 6].map (fassigned [7, 8, 9] plain fun _ => false) =
    [some (some [1, 5], false), some (some [1, 5, 9], true), some (some [1, 8, 9], true), some (some [7, 8, 9], true)] := by decide +kernel

/-- An assignment that throws leaves 0 in its target; an allocation that throws leaves the elements before it. -/
example : fassigned [7, 8, 9] (fun x => ⟨x, x == 5⟩) (fun _ => false) 0 = some (some [1, 0, 9], true) := by decide +kernel
example : fassigned [7] plain (fun i => i == 0) 0 = some (some [1], true) := by decide +kernel

end Verif.Lists
