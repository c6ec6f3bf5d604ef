import Verif.Lists.FromThrowingView

/-!
# Assignment of views whose functions throw to doubly linked lists

`assign` overwrites the elements that exist, erases those that are left, and appends the rest of the view. A function of the view can throw in any of the three steps.
-/

namespace Verif.Lists

open Verif Verif.Views Verif.Views.Calling Verif.Containers

variable {V τ σ ρ : Type}

/-! ## Model -/

namespace LHeap

/-- `copy_truncate` (source/containers/algorithms/copy.cpp 44-73) of a view to the elements from `it` on, as `LHeap.copyTruncate`. An assignment that throws leaves the
value `left` in its target; a function that throws when the view is read is called before the assignment. -/
def copyTruncateC (l : Nat) (left : V) (r : RngC τ σ ρ) (conv : ρ → Item V) : Nat → LHeap V → Nat → σ → τ → Out (LHeap V × Nat × σ × τ)
  | 0, _, _, _, _ => .ub
  | f + 1, h, it, s, t =>
    match r.atEnd s t with
    | .ub => .ub
    | .exn t => .exn (h, it, s, t)
    | .ok true t => .ok (h, it, s, t)
    | .ok false t =>
      if it = l then .ok (h, it, s, t)
      else
        match r.deref s t with
        | .ub => .ub
        | .exn t => .exn (h, it, s, t)
        | .ok x t =>
          match h.setVal it (if (conv x).throws then left else (conv x).val) with
          | none => .ub
          | some h =>
            if (conv x).throws then .exn (h, it, s, t)
            else
              match r.next s t with
              | .ub => .ub
              | .exn t => .exn (h, it, s, t)
              | .ok s t =>
                match h.nextOf it with
                | none => .ub
                | some it => copyTruncateC l left r conv f h it s t

/-- `assign` of a view (source/containers/assign.cpp 81-91): `copy_truncate`, `erase_to_end`, and `append` of the rest of the view. -/
def assignViewC (h : LHeap V) (l : Nat) (left : V) (D : Nat) (p : PipeC τ ρ) (conv : ρ → Item V) (noMem : Nat → Bool) (t : τ) : Out (LHeap V) :=
  match p.build D t with
  | .ub => .ub
  | .exn _ => .exn h
  | .ok B t =>
    match h.nextOf l with
    | none => .ub
    | some first =>
      match copyTruncateC l left B.ops conv (D + 1) h first B.first t with
      | .ub => .ub
      | .exn (h, _) => .exn h
      | .ok (h, it, s, t) =>
        match h.erase it l with
        | none => .ub
        | some h => feedC (fun h v fail => LHeap.pushBack h l v fail) B.ops conv noMem (D + 1) 0 h s t

end LHeap

/-- `assign` of a view to `containers::list` (source/containers/assign.cpp 81-91); `copy_truncate` does not change the size. -/
def SHeap.assignViewC (s : SHeap V) (l : Nat) (left : V) (D : Nat) (p : PipeC τ ρ) (conv : ρ → Item V) (noMem : Nat → Bool) (t : τ) : Out (SHeap V) :=
  match p.build D t with
  | .ub => .ub
  | .exn _ => .exn s
  | .ok B t =>
    match s.h.nextOf l with
    | none => .ub
    | some first =>
      match LHeap.copyTruncateC l left B.ops conv (D + 1) s.h first B.first t with
      | .ub => .ub
      | .exn (h, _) => .exn ⟨h, s.size⟩
      | .ok (h, it, i, t) =>
        match (⟨h, s.size⟩ : SHeap V).erase l it l with
        | none => .ub
        | some s => feedC (fun s v fail => SHeap.pushBack s l v fail) B.ops conv noMem (D + 1) 0 s i t

/-! ## Specification -/

/-- The nodes `xs` when the first of them have got the values `vs`. -/
def overwrite (xs : List (Nat × V)) (vs : List V) : List (Nat × V) := xs.zipWith (fun x v => (x.1, v)) vs

/-- What an assignment of `vs` to the nodes `xs` leaves if it throws. A function of the view threw when `n` values had been assigned (`quiet`: none may); or the conversion
or assignment behind them did, and left something in its target; or all nodes have been used and `n` values are in new nodes, and a function, the next conversion
or the next allocation threw. No conversion of the values before throws. -/
inductive Partly (quiet : Prop) (noMem : Nat → Bool) (left : V) (next : Nat) (xs : List (Nat × V)) (vs : List (Item V)) : List (Nat × V) → Prop
  | reading (n : Nat) (hn : n ≤ xs.length) (hv : n ≤ vs.length) (hg : ∀ v ∈ vs.take n, v.throws = false) (hq : ¬ quiet) :
    Partly quiet noMem left next xs vs (overwrite xs ((vs.take n).map (·.val)) ++ xs.drop n)
  | assigning (n : Nat) (x : Nat × V) (ys : List (Nat × V)) (v : Item V) (hx : xs.drop n = x :: ys) (hg : ∀ v ∈ vs.take n, v.throws = false) (hv : vs[n]? = some v)
    (ht : v.throws = true) : Partly quiet noMem left next xs vs (overwrite xs ((vs.take n).map (·.val)) ++ (x.1, left) :: ys)
  | appending (n : Nat) (hn : n ≤ vs.length - xs.length) (hg : ∀ v ∈ vs.take (xs.length + n), v.throws = false) (hm : ∀ i, i < n → noMem i = false)
    (ht : ¬ quiet ∨ (∃ v, vs[xs.length + n]? = some v ∧ v.throws = true) ∨ (n < vs.length - xs.length ∧ noMem n = true)) :
    Partly quiet noMem left next xs vs (overwrite xs (vs.map (·.val)) ++ number next (((vs.drop xs.length).take n).map (·.val)))

/-! ## Proofs -/

theorem good_cons {v : Item V} {vs : List (Item V)} {n : Nat} (h0 : v.throws = false) (h : ∀ v ∈ vs.take n, v.throws = false) : ∀ w ∈ (v :: vs).take (n + 1), w.throws = false := by
  intro w hw
  rw [List.take_succ_cons] at hw
  rcases List.mem_cons.1 hw with rfl | hw
  · exact h0
  · exact h w hw

theorem Partly.cons {quiet : Prop} {noMem : Nat → Bool} {left : V} {next : Nat} {xs zs : List (Nat × V)} {vs : List (Item V)} (h : Partly quiet noMem left next xs vs zs)
    (x : Nat × V) {v : Item V} (h0 : v.throws = false) : Partly quiet noMem left next (x :: xs) (v :: vs) ((x.1, v.val) :: zs) := by
  cases h with
  | reading n hn hv hg hq => exact .reading (n + 1) (by simpa using hn) (by simpa using hv) (good_cons h0 hg) hq
  | assigning n y ys w hy hg hv ht => exact .assigning (n + 1) y ys w hy (good_cons h0 hg) (by simpa using hv) ht
  | appending n hn hg hm ht =>
    have e : (x :: xs).length + n = xs.length + n + 1 := by simp only [List.length_cons]; omega
    exact .appending n (by simpa using hn) (by rw [e]; exact good_cons h0 hg) hm (by rw [e]; simpa using ht)

theorem eraseTail_op {h : LHeap V} {A : Abs V} {l : Nat} {Z W : List (Nat × V)} (r1 : Rel h A) (hl1 : A.lists l = some (Z ++ W)) :
    ∃ h', h.erase (headId W l) l = some h' ∧ Rel h' ((A.set l Z).use 1) := by
  have hno := r1.notMem hl1
  have hno2 : l ∉ ids W := fun q => hno (by simp only [ids, List.map_append, List.mem_append]; exact Or.inr q)
  have hndz := r1.nodup hl1
  have hez : ids (Z ++ W) = ids Z ++ ids W := by simp [ids]
  rw [hez] at hndz
  have hlZ : l ∉ ids Z := fun q => hno (by simp only [ids, List.map_append, List.mem_append]; exact Or.inl q)
  obtain ⟨c1, c2⟩ : before (headId W l) (Z ++ W) = Z ∧ fromPos (headId W l) (Z ++ W) = W := by
    cases W with
    | nil => simp only [List.append_nil]; exact ⟨before_of_not_mem hlZ, from_of_not_mem hlZ⟩
    | cons w W =>
      have : w.1 ∉ ids Z := fun hz => (List.nodup_append.1 hndz).2.2 w.1 hz w.1 (by simp [ids]) rfl
      exact ⟨before_cut this, from_cut this⟩
  obtain ⟨h2, e2, r2⟩ := erase_op (l := l) (first := headId W l) (last := l) r1
    ⟨⟨_, hl1⟩, by
      rw [Abs.at_of hl1]
      refine ⟨?_, Or.inl rfl⟩
      rcases headId_uses l W with q | q
      · exact Or.inl q
      · exact Or.inr (by rw [hez]; simp only [List.mem_append]; exact Or.inr q)⟩
  simp only [Abs.spec, Abs.at_of hl1, outside, c1, c2, from_of_not_mem hno2, List.append_nil] at r2
  exact ⟨h2, e2, r2⟩

theorem eraseTail_sz {s : SHeap V} {A : Abs V} {st : Nat → Bool} {l : Nat} {Z W : List (Nat × V)} (r1 : SRel s A st) (hl1 : A.lists l = some (Z ++ W)) :
    ∃ s', s.erase l (headId W l) l = some s' ∧ SRel s' ((A.set l Z).use 1) st := by
  have hno := r1.rel.notMem hl1
  have hno2 : l ∉ ids W := fun q => hno (by simp only [ids, List.map_append, List.mem_append]; exact Or.inr q)
  have hndz := r1.rel.nodup hl1
  have hez : ids (Z ++ W) = ids Z ++ ids W := by simp [ids]
  rw [hez] at hndz
  have hlZ : l ∉ ids Z := fun q => hno (by simp only [ids, List.map_append, List.mem_append]; exact Or.inl q)
  obtain ⟨c1, c2⟩ : before (headId W l) (Z ++ W) = Z ∧ fromPos (headId W l) (Z ++ W) = W := by
    cases W with
    | nil => simp only [List.append_nil]; exact ⟨before_of_not_mem hlZ, from_of_not_mem hlZ⟩
    | cons w W =>
      have : w.1 ∉ ids Z := fun hz => (List.nodup_append.1 hndz).2.2 w.1 hz w.1 (by simp [ids]) rfl
      exact ⟨before_cut this, from_cut this⟩
  obtain ⟨h2, e2, r2⟩ := erase_sz (l := l) (first := headId W l) (last := l) r1
    ⟨⟨_, hl1⟩, by
      rw [Abs.at_of hl1]
      refine ⟨?_, Or.inl rfl⟩
      rcases headId_uses l W with q | q
      · exact Or.inl q
      · exact Or.inr (by rw [hez]; simp only [List.mem_append]; exact Or.inr q)⟩
  simp only [Abs.spec, Abs.at_of hl1, outside, c1, c2, from_of_not_mem hno2, List.append_nil] at r2
  exact ⟨h2, e2, r2⟩

section
variable {quiet : Prop} {r : RngC τ σ ρ} {conv : ρ → Item V}

theorem copyTruncateC_op (noMem : Nat → Bool) (left : V) (next : Nat) {l : Nat} : ∀ {ys : List ρ} {s : σ}, VisitsC quiet r s ys → ∀ {f : Nat}, ys.length < f → ∀ {h : LHeap V} {A : Abs V} {P Q : List (Nat × V)},
    Rel h A → A.lists l = some (P ++ Q) → ∀ t,
    (∃ h' z zs, LHeap.copyTruncateC l left r conv f h (headId Q l) s t = .exn (h', z) ∧ Partly quiet noMem left next Q (ys.map conv) zs ∧ zs.length = Q.length ∧ Rel h' (A.set l (P ++ zs))) ∨
    ∃ h' s' t', LHeap.copyTruncateC l left r conv f h (headId Q l) s t = .ok (h', headId (Q.drop ys.length) l, s', t') ∧ VisitsC quiet r s' (ys.drop Q.length) ∧
      (∀ x ∈ ys.take Q.length, (conv x).throws = false) ∧ Rel h' (A.set l (P ++ (overwrite Q (ys.map fun x => (conv x).val) ++ Q.drop ys.length))) := by
  have hstart : ∀ (vs : List (Item V)) (Q : List (Nat × V)), ¬ quiet → Partly quiet noMem left next Q vs Q := fun vs Q hq => by
    simpa [overwrite] using Partly.reading (noMem := noMem) (left := left) (next := next) (xs := Q) (vs := vs) 0 (Nat.zero_le _) (Nat.zero_le _) (by simp) hq
  intro ys
  induction ys with
  | nil =>
    intro s v f hf h A P Q hr hl t
    obtain ⟨f, rfl⟩ : ∃ g, f = g + 1 := ⟨f - 1, by omega⟩
    have h0 := v t
    cases e : r.atEnd s t with
    | ub => rw [e] at h0; exact h0.elim
    | exn t1 =>
      rw [e] at h0
      exact .inl ⟨h, _, Q, by simp only [LHeap.copyTruncateC, e]; rfl, hstart _ _ h0, rfl, by rw [Abs.set_self hl]; exact hr⟩
    | ok b t1 =>
      rw [e] at h0
      have h0 : b = true := h0
      subst h0
      refine .inr ⟨h, s, t1, by simp only [LHeap.copyTruncateC, e, List.length_nil, List.drop_zero], by simpa using v, by simp, ?_⟩
      simp only [overwrite, List.map_nil, List.zipWith_nil_right, List.length_nil, List.drop_zero, List.nil_append]
      rw [Abs.set_self hl]
      exact hr
  | cons x ys ih =>
    intro s v f hf h A P Q hr hl t
    obtain ⟨h1, h2, s', h3, h4⟩ := id v
    obtain ⟨f, rfl⟩ : ∃ g, f = g + 1 := ⟨f - 1, by omega⟩
    have h1 := h1 t
    cases e1 : r.atEnd s t with
    | ub => rw [e1] at h1; exact h1.elim
    | exn t1 =>
      rw [e1] at h1
      exact .inl ⟨h, _, Q, by simp only [LHeap.copyTruncateC, e1]; rfl, hstart _ _ h1, rfl, by rw [Abs.set_self hl]; exact hr⟩
    | ok b t1 =>
      rw [e1] at h1
      have h1 : b = false := h1
      subst h1
      cases Q with
      | nil =>
        refine .inr ⟨h, s, t1, by simp [LHeap.copyTruncateC, e1, headId], by simpa using v, by simp, ?_⟩
        simp only [overwrite, List.zipWith_nil_left, List.drop_nil, List.append_nil]
        rw [Abs.set_self (by simpa using hl)]
        exact hr
      | cons y Q =>
        have hxl : y.1 ≠ l := fun e => hr.notMem hl (by rw [← e]; simp [ids])
        have hid : headId (y :: Q) l = y.1 := rfl
        rw [hid]
        have h2 := h2 t1
        cases e2 : r.deref s t1 with
        | ub => rw [e2] at h2; exact h2.elim
        | exn t2 =>
          rw [e2] at h2
          exact .inl ⟨h, _, y :: Q, by simp only [LHeap.copyTruncateC, e1, if_neg hxl, e2]; rfl, hstart _ _ h2, rfl, by rw [Abs.set_self hl]; exact hr⟩
        | ok z t2 =>
          rw [e2] at h2
          have h2 : z = x := h2
          subst h2
          cases ht : (conv z).throws with
          | true =>
            obtain ⟨g1, e3, r1⟩ := setVal_op hr hl left
            refine .inl ⟨g1, _, (y.1, left) :: Q, by simp only [LHeap.copyTruncateC, e1, if_neg hxl, e2, ht, if_true, e3]; rfl, ?_, rfl, r1⟩
            simpa [overwrite] using Partly.assigning (quiet := quiet) (noMem := noMem) (left := left) (next := next) (xs := y :: Q) (vs := (z :: ys).map conv) 0 y Q (conv z) rfl (by simp)
              (by simp) ht
          | false =>
            obtain ⟨g1, e3, r1⟩ := setVal_op hr hl (conv z).val
            have hl1 : (A.set l (P ++ (y.1, (conv z).val) :: Q)).lists l = some (P ++ (y.1, (conv z).val) :: Q) := by simp [Abs.set]
            have hnx := nextOf_node r1 hl1
            have h3 := h3 t2
            cases e4 : r.next s t2 with
            | ub => rw [e4] at h3; exact h3.elim
            | exn t3 =>
              rw [e4] at h3
              refine .inl ⟨g1, _, (y.1, (conv z).val) :: Q, by simp only [LHeap.copyTruncateC, e1, if_neg hxl, e2, ht, Bool.false_eq_true, if_false, e3, e4]; rfl, ?_, rfl, r1⟩
              exact (hstart _ Q h3).cons y ht
            | ok s2 t3 =>
              rw [e4] at h3
              have h3 : s2 = s' := h3
              subst h3
              have hstep : LHeap.copyTruncateC l left r conv (f + 1) h y.1 s t = LHeap.copyTruncateC l left r conv f g1 (headId Q l) s2 t3 := by
                simp only [LHeap.copyTruncateC, e1, if_neg hxl, e2, ht, Bool.false_eq_true, if_false, e3, e4, hnx]
              rw [hstep]
              rcases ih h4 (f := f) (by simpa using hf) (P := P ++ [(y.1, (conv z).val)]) (Q := Q) r1 (by simp [Abs.set]) t3 with
                ⟨h', w, zs, a1, a2, an, a3⟩ | ⟨h', s3, t4, a1, a2, a3, a4⟩
              · refine .inl ⟨h', w, (y.1, (conv z).val) :: zs, a1, a2.cons y ht, by rw [List.length_cons, an, List.length_cons], ?_⟩
                simp only [Abs.set, upd_upd, List.append_assoc] at a3 ⊢
                exact a3
              · refine .inr ⟨h', s3, t4, a1, a2, ?_, ?_⟩
                · intro x hx
                  rw [List.length_cons, List.take_succ_cons] at hx
                  rcases List.mem_cons.1 hx with rfl | hx
                  · exact ht
                  · exact a3 x hx
                · simp only [Abs.set, upd_upd, List.append_assoc, overwrite, List.map_cons, List.zipWith_cons_cons, List.length_cons, List.drop_succ_cons] at a4 ⊢
                  exact a4

end

/-- **C121**, `assign` to a doubly linked list: afterwards it holds the elements of the view, in the nodes it had as far as they go; or there was an exception, and it holds
the values assigned before and what was there of the others. All other lists are as before, and no node is lost or shared. It throws only if a function may, or
a conversion, an assignment or an allocation does, and always if a conversion or an assignment does. `Partly` says where it stops. -/
theorem C121_assign {h : LHeap V} {A : Abs V} {l : Nat} {xs} (r : Rel h A) (hl : A.lists l = some xs) (left : V) {D : Nat} (p : PipeC τ ρ) (hp : p.Fits D)
    (conv : ρ → Item V) (noMem : Nat → Bool) (t : τ) :
    ∃ thrown h' zs used, h.assignViewC l left D p conv noMem t = Out.of thrown h' ∧ Rel h' ((A.set l zs).use used) ∧
      (thrown = false → zs = overwrite xs (p.denote.map fun x => (conv x).val) ++ number (A.next + 1) ((p.denote.map fun x => (conv x).val).drop xs.length) ∧
        ∀ x ∈ p.denote, (conv x).throws = false) ∧
      (thrown = true → Partly p.Quiet noMem left (A.next + 1) xs (p.denote.map conv) zs) := by
  have hb := C116_view p hp t
  have hD := p.length_le hp
  cases e : p.build D t with
  | ub => rw [e] at hb; exact hb.elim
  | exn t1 =>
    rw [e] at hb
    refine ⟨true, h, xs, 0, by simp only [LHeap.assignViewC, e, Out.of_true], by rw [Abs.set_self hl]; exact r, fun e => (by cases e), fun _ => ?_⟩
    simpa [overwrite] using Partly.reading (noMem := noMem) (left := left) (next := A.next + 1) (xs := xs) (vs := p.denote.map conv) 0 (Nat.zero_le _) (Nat.zero_le _) (by simp) hb
  | ok B t1 =>
    rw [e] at hb
    have hfirst := ring_first (r.ring hl)
    rcases copyTruncateC_op (conv := conv) noMem left (A.next + 1) hb (f := D + 1) (by omega) (P := []) (Q := xs) r (by simpa using hl) t1 with
      ⟨h1, z, zs, a1, a2, an, a3⟩ | ⟨h1, s, t2, a1, a2, a3, a4⟩
    · refine ⟨true, h1, zs, 0, by simp only [LHeap.assignViewC, e, hfirst, a1, Out.of_true], a3, fun e => (by cases e), fun _ => a2⟩
    · simp only [List.nil_append] at a4
      generalize hZ : overwrite xs (p.denote.map fun x => (conv x).val) = Z at a4
      obtain ⟨h2, e2, r2⟩ := eraseTail_op (l := l) (Z := Z) (W := xs.drop p.denote.length) a4 (by simp [Abs.set])
      simp only [Abs.set, Abs.use, upd_upd] at r2
      have hlen : (p.denote.drop xs.length).length < D + 1 := by rw [List.length_drop]; omega
      obtain ⟨n, thrown, h3, e3, hP, tk⟩ := feedC_eq (S := LHeap V) (push := fun h v fail => LHeap.pushBack h l v fail) (conv := conv)
        (P := fun h vs => Rel h ((A.set l (Z ++ number (A.next + 1) vs)).use (1 + vs.length))) (fun _ _ => rfl)
        (fun q vs v hq => by
          obtain ⟨q', e, r'⟩ := pushNode_spec (l := l) (xs := Z ++ number (A.next + 1) vs) hq (by simp [Abs.set, Abs.use]) v
          refine ⟨q', by simp [LHeap.pushBack, e, ptr], ?_⟩
          have hs := number_snoc ⟨A.lists, A.next + 1⟩ Z vs v
          simp only [Abs.set, Abs.use, upd_upd, ← Nat.add_assoc] at r' ⊢
          simp only at hs
          rw [hs] at r'
          simpa [Nat.add_assoc] using r')
        a2 hlen (noMem := noMem) 0 (q := h2) (vs := []) (by simpa [number, Abs.set, Abs.use] using r2) t2
      simp only [List.nil_append] at hP
      refine ⟨thrown, h3, _, _, by simp only [LHeap.assignViewC, e, hfirst, a1, e2, e3], hP, ?_, ?_⟩
      · intro ht
        have hn := tk.all ht
        refine ⟨by rw [hn, List.take_length, ← hZ, List.map_drop], fun x hx => ?_⟩
        rw [← List.take_append_drop xs.length p.denote] at hx
        rcases List.mem_append.1 hx with hx | hx
        · exact a3 x hx
        · exact tk.good x (by rw [hn, List.take_length]; exact hx)
      · intro ht
        have := Partly.appending (quiet := p.Quiet) (noMem := noMem) (left := left) (next := A.next + 1) (xs := xs) (vs := p.denote.map conv) n (by simpa using tk.le)
          (by
            intro v hv
            rw [← List.map_take, List.take_add] at hv
            obtain ⟨x, hx, rfl⟩ := List.mem_map.1 hv
            rcases List.mem_append.1 hx with hx | hx
            · exact a3 x hx
            · exact tk.good x hx)
          (fun i hi => by simpa using tk.mem i hi)
          (by
            rcases tk.cause ht with a | ⟨x, hx, a⟩ | ⟨hi, a⟩
            · exact .inl a
            · exact .inr (.inl ⟨conv x, by rw [List.getElem?_map, ← List.getElem?_drop, hx]; rfl, a⟩)
            · exact .inr (.inr ⟨by simpa using hi, by simpa using a⟩))
        have e1 : (p.denote.map conv).map (·.val) = p.denote.map fun x => (conv x).val := by rw [List.map_map]; rfl
        rw [e1, hZ, ← List.map_drop, ← List.map_take, List.map_map] at this
        exact this

/-- **C121**, `assign` to `containers::list`, likewise; also `size()` is right where it was. -/
theorem C121_sized_assign {s : SHeap V} {A : Abs V} {st : Nat → Bool} {l : Nat} {xs} (r : SRel s A st) (hl : A.lists l = some xs) (left : V) {D : Nat} (p : PipeC τ ρ) (hp : p.Fits D)
    (conv : ρ → Item V) (noMem : Nat → Bool) (t : τ) :
    ∃ thrown s' zs used, s.assignViewC l left D p conv noMem t = Out.of thrown s' ∧ SRel s' ((A.set l zs).use used) st ∧
      (thrown = false → zs = overwrite xs (p.denote.map fun x => (conv x).val) ++ number (A.next + 1) ((p.denote.map fun x => (conv x).val).drop xs.length) ∧
        ∀ x ∈ p.denote, (conv x).throws = false) ∧
      (thrown = true → Partly p.Quiet noMem left (A.next + 1) xs (p.denote.map conv) zs) := by
  have hb := C116_view p hp t
  have hD := p.length_le hp
  cases e : p.build D t with
  | ub => rw [e] at hb; exact hb.elim
  | exn t1 =>
    rw [e] at hb
    refine ⟨true, s, xs, 0, by simp only [SHeap.assignViewC, e, Out.of_true], by rw [Abs.set_self hl]; exact r, fun e => (by cases e), fun _ => ?_⟩
    simpa [overwrite] using Partly.reading (noMem := noMem) (left := left) (next := A.next + 1) (xs := xs) (vs := p.denote.map conv) 0 (Nat.zero_le _) (Nat.zero_le _) (by simp) hb
  | ok B t1 =>
    rw [e] at hb
    have hfirst := ring_first (r.rel.ring hl)
    rcases copyTruncateC_op (conv := conv) noMem left (A.next + 1) hb (f := D + 1) (by omega) (P := []) (Q := xs) r.rel (by simpa using hl) t1 with
      ⟨h1, z, zs, a1, a2, an, a3⟩ | ⟨h1, i, t2, a1, a2, a3, a4⟩
    · refine ⟨true, ⟨h1, s.size⟩, zs, 0, by simp only [SHeap.assignViewC, e, hfirst, a1, Out.of_true], r.setSame hl a3 an, fun e => (by cases e), fun _ => a2⟩
    · simp only [List.nil_append] at a4
      have a4 := r.setSame hl a4 (by simp only [overwrite, List.length_append, List.length_zipWith, List.length_drop, List.length_map]; omega)
      generalize hZ : overwrite xs (p.denote.map fun x => (conv x).val) = Z at a4
      obtain ⟨h2, e2, r2⟩ := eraseTail_sz (l := l) (Z := Z) (W := xs.drop p.denote.length) a4 (by simp [Abs.set])
      simp only [Abs.set, Abs.use, upd_upd] at r2
      have hlen : (p.denote.drop xs.length).length < D + 1 := by rw [List.length_drop]; omega
      obtain ⟨n, thrown, h3, e3, hP, tk⟩ := feedC_eq (S := SHeap V) (push := fun h v fail => SHeap.pushBack h l v fail) (conv := conv)
        (P := fun h vs => SRel h ((A.set l (Z ++ number (A.next + 1) vs)).use (1 + vs.length)) st) (fun _ _ => rfl)
        (fun q vs v hq => by
          obtain ⟨q', e, r'⟩ := pushBack_sz (l := l) (xs := Z ++ number (A.next + 1) vs) hq (by simp [Abs.set, Abs.use]) v
          refine ⟨q', e, ?_⟩
          have hs := number_snoc ⟨A.lists, A.next + 1⟩ Z vs v
          simp only [Abs.set, Abs.use, upd_upd, ← Nat.add_assoc] at r' ⊢
          simp only at hs
          rw [hs] at r'
          simpa [Nat.add_assoc] using r')
        a2 hlen (noMem := noMem) 0 (q := h2) (vs := []) (by simpa [number, Abs.set, Abs.use] using r2) t2
      simp only [List.nil_append] at hP
      refine ⟨thrown, h3, _, _, by simp only [SHeap.assignViewC, e, hfirst, a1, e2, e3], hP, ?_, ?_⟩
      · intro ht
        have hn := tk.all ht
        refine ⟨by rw [hn, List.take_length, ← hZ, List.map_drop], fun x hx => ?_⟩
        rw [← List.take_append_drop xs.length p.denote] at hx
        rcases List.mem_append.1 hx with hx | hx
        · exact a3 x hx
        · exact tk.good x (by rw [hn, List.take_length]; exact hx)
      · intro ht
        have := Partly.appending (quiet := p.Quiet) (noMem := noMem) (left := left) (next := A.next + 1) (xs := xs) (vs := p.denote.map conv) n (by simpa using tk.le)
          (by
            intro v hv
            rw [← List.map_take, List.take_add] at hv
            obtain ⟨x, hx, rfl⟩ := List.mem_map.1 hv
            rcases List.mem_append.1 hx with hx | hx
            · exact a3 x hx
            · exact tk.good x hx)
          (fun i hi => by simpa using tk.mem i hi)
          (by
            rcases tk.cause ht with a | ⟨x, hx, a⟩ | ⟨hi, a⟩
            · exact .inl a
            · exact .inr (.inl ⟨conv x, by rw [List.getElem?_map, ← List.getElem?_drop, hx]; rfl, a⟩)
            · exact .inr (.inr ⟨by simpa using hi, by simpa using a⟩))
        have e1 : (p.denote.map conv).map (·.val) = p.denote.map fun x => (conv x).val := by rw [List.map_map]; rfl
        rw [e1, hZ, ← List.map_drop, ← List.map_take, List.map_map] at this
        exact this

/-! ## Cases -/

/-- What the list of `vs` holds after `assign` of the view of two elements. -/
def assigned (vs : List Nat) (conv : Nat → Item Nat) (noMem : Nat → Bool) (t : Nat) : Option (Option (List Nat) × Option (List Nat) × Bool) :=
  match (LHeap.start Nat).makeFrom vs none with
  | .ok h => shownL 0 (h.assignViewC 0 0 100 twoOdd conv noMem t)
  | _ => none

/-- `assign` of two elements to a list of one, two and three elements, which starts with the calls 3, ..., 6 of the predicate: no call throws; one behind the second
element does, one behind the first, one before it. -/
example : [3, 4, 5, 6].map (assigned [7] plain fun _ => false) =
    [some (some [1, 5], some [5, 1], false), some (some [1, 5], some [5, 1], true), some (some [1], some [1], true), some (some [7], some [7], true)] := by decide +kernel
example : [3, 4, 5, 6].map (assigned [7, 8] plain fun _ => false) =
    [some (some [1, 5], some [5, 1], false), some (some [1, 5], some [5, 1], true), some (some [1, 8], some [8, 1], true), some (some [7, 8], some [8, 7], true)] := by
  decide +kernel
example : [3, 4, 5, 6].map (assigned [7, 8, 9] plain fun _ => false) =
    [some (some [1, 5], some [5, 1], false), some (some [1, 5, 9], some [9, 5, 1], true), some (some [1, 8, 9], some [9, 8, 1], true),
     some (some [7, 8, 9], some [9, 8, 7], true)] := by decide +kernel

/-- An assignment that throws leaves 0 in its target; an allocation that throws leaves the elements before it. -/
example : assigned [7, 8, 9] (fun x => ⟨x, x == 5⟩) (fun _ => false) 0 = some (some [1, 0, 9], some [9, 0, 1], true) := by decide +kernel
example : assigned [7] plain (fun i => i == 0) 0 = some (some [1], some [1], true) := by decide +kernel

/-- The size after `assign` to `containers::list` of three elements. -/
example : [3, 4, 5, 6].map (fun t => match (SHeap.start Nat).makeFrom [7, 8, 9] none with
    | .ok s => match s.assignViewC 0 0 100 twoOdd plain (fun _ => false) t with
      | .ok s => some (s.h.forward 0, s.sizeOf 0, false)
      | .exn s => some (s.h.forward 0, s.sizeOf 0, true)
      | .ub => none
    | _ => none) =
    [some (some [1, 5], 2, false), some (some [1, 5, 9], 3, true), some (some [1, 8, 9], 3, true), some (some [7, 8, 9], 3, true)] := by decide +kernel

end Verif.Lists
