import Verif.Lists.ForwardInv

/-!
# C32: singly linked lists
-/

namespace Verif.Lists

variable {V : Type}

theorem pos_cut {l p : Nat} {xs : List (Nat × V)} (hp : ValidPos l xs p) (hn : (ids xs).Nodup) (hl : l ∉ ids xs) :
    xs = upTo l p xs ++ behind l p xs ∧ lastId l (upTo l p xs) = p := by
  unfold upTo behind
  by_cases hpl : p = l
  · subst hpl; simp [lastId]
  · rw [if_neg hpl, if_neg hpl]
    obtain ⟨P, v, Q, rfl, hP⟩ := cut_of_mem (hp.resolve_left hpl)
    rw [before_cut hP, from_cut hP]
    simp [lastId, ids]

theorem FRel.cut {h : FHeap V} {A : Abs V} (r : FRel h A) {l p : Nat} {xs} (hl : A.lists l = some xs) (hp : ValidPos l xs p) :
    xs = upTo l p xs ++ behind l p xs ∧ lastId l (upTo l p xs) = p := pos_cut hp (r.nodup hl) (r.notMem hl)

theorem fappend_op : ∀ (vs : List V) {fail : Option Nat} {h : FHeap V} {A : Abs V} {l : Nat} {P Q} (_ : FRel h A) (_ : A.lists l = some (P ++ Q)),
    ∃ h', h.appendAfter (lastId l P) vs fail = Out.of (decide (Abs.made vs.length fail < vs.length)) h' ∧
      FRel h' ((A.set l (P ++ number A.next (vs.take (Abs.made vs.length fail)) ++ Q)).use (Abs.made vs.length fail)) := by
  intro vs
  induction vs with
  | nil =>
    intro fail h A l P Q r hl
    have hm : Abs.made 0 fail = 0 := by cases fail <;> simp [Abs.made]
    refine ⟨h, ?_, ?_⟩
    · simp [FHeap.appendAfter, hm]
    · simp [hm, number, Abs.set_self hl, Abs.use]
      exact r
  | cons v vs ih =>
    intro fail h A l P Q r hl
    by_cases hf : fail = some 0
    · subst hf
      refine ⟨h, by simp [FHeap.appendAfter, FHeap.insertAfter, Abs.made], ?_⟩
      simp [Abs.made, number, Abs.set_self hl, Abs.use]
      exact r
    · obtain ⟨h1, e1, r1⟩ := finsert_spec r hl v
      obtain ⟨h2, e2, r2⟩ := ih (fail := fail.map (· - 1)) (l := l) r1 (P := P ++ [(A.next, v)]) (Q := Q) (by simp)
      have hb : (fail == some 0) = false := by
        cases fail with
        | none => rfl
        | some k => simp at hf ⊢; exact hf
      have hlast : lastId l (P ++ [(A.next, v)]) = h.next := by simp [lastId, ids, r.same]
      rw [hlast] at e2
      refine ⟨h2, ?_, ?_⟩
      · rw [FHeap.appendAfter, FHeap.insertAfter, hb]
        simp only [Bool.false_eq_true, if_false, e1, ptr, Out.andThen_ok, e2]
        congr 2
        rw [List.length_cons, made_succ _ _ hf]
        simp
      · rw [List.length_cons, made_succ _ _ hf]
        simp only [Abs.set, Abs.use, upd_upd, List.append_assoc] at r2 ⊢
        rw [List.take_succ_cons, number]
        have : A.next + (Abs.made vs.length (fail.map (· - 1)) + 1) = A.next + 1 + Abs.made vs.length (fail.map (· - 1)) := by omega
        rw [this]
        exact r2

theorem fmakeFrom_op {h : FHeap V} {A : Abs V} {vs : List V} {fail : Option Nat} (r : FRel h A) (hp : A.fpre (.newFrom vs fail)) :
    ∃ h', h.makeFrom vs fail = Out.of (A.fspec (.newFrom vs fail)).2 h' ∧ FRel h' (A.fspec (.newFrom vs fail)).1 := by
  obtain ⟨hn, r1⟩ := fmakeList_spec r
  rw [r.same] at r1
  obtain ⟨h2, e2, r2⟩ := fappend_op vs (fail := fail) (l := h.next) (P := []) (Q := []) r1 (by simp)
  have e2 : h.makeList.appendAfter h.next vs fail = _ := e2
  have hle := made_le vs.length fail
  simp only [Abs.fspec]
  simp only [Abs.fpre] at hp
  by_cases hlt : Abs.made vs.length fail < vs.length
  · have h0 : Abs.made vs.length fail = 0 := by omega
    rw [if_pos hlt]
    rw [h0] at e2 r2 hlt
    simp only [hlt, decide_true, Out.of_true] at e2
    have r3 := ffree_rel (l := h.next) r2 (by simp [Abs.set, Abs.use, number])
    refine ⟨{ h2 with cell := upd h2.cell h.next none }, ?_, ?_⟩
    · simp only [FHeap.makeFrom]
      rw [e2]
      rfl
    · simp only [Abs.set, Abs.use, upd_upd, upd_self hn] at r3 ⊢
      rw [r.same]
      exact r3
  · have h0 : Abs.made vs.length fail = vs.length := by omega
    rw [if_neg hlt]
    rw [h0] at e2 r2
    simp only [Nat.lt_irrefl, decide_false, Out.of_false] at e2
    refine ⟨h2, ?_, ?_⟩
    · simp only [FHeap.makeFrom, e2, Out.of_false]
    · simp only [Abs.set, Abs.use, upd_upd, List.take_length, List.nil_append, List.append_nil, r.same] at r2 ⊢
      rw [← Nat.add_assoc]
      exact r2

theorem feraseLoop_op : ∀ (M : List (Nat × V)) {n : Nat} {h : FHeap V} {A : Abs V} {l : Nat} {P Q : List (Nat × V)} (_ : FRel h A)
    (_ : A.lists l = some (P ++ (M ++ Q))) (_ : M.length < n),
    ∃ h', FHeap.eraseRangeLoop n h (lastId l P) (startOf (ids (M ++ Q)) none) (startOf (ids Q) none) = some h' ∧
      FRel h' (A.set l (P ++ Q)) := by
  intro M
  induction M with
  | nil =>
    intro n h A l P Q r hl hn
    cases n with
    | zero => cases hn
    | succ n =>
      refine ⟨h, by simp [FHeap.eraseRangeLoop], ?_⟩
      rw [Abs.set_self (by simpa using hl)]
      exact r
  | cons m M ih =>
    intro n h A l P Q r hl hn
    cases n with
    | zero => cases hn
    | succ n =>
      obtain ⟨h1, e1, r1⟩ := ferase_spec (P := P) (x := m) (Q := M ++ Q) r hl
      obtain ⟨h2, e2, r2⟩ := ih (n := n) (l := l) (P := P) (Q := Q) r1 (by simp) (by simpa using hn)
      have hne : startOf (ids (m :: M ++ Q)) none ≠ startOf (ids Q) none := by
        have hnd := r.nodup hl
        rw [ids, List.map_append, List.nodup_append] at hnd
        have hnd := hnd.2.1
        simp only [List.cons_append, List.map_cons, List.nodup_cons, List.map_append, List.mem_append, not_or] at hnd
        cases Q with
        | nil => simp [startOf]
        | cons q Q =>
          simp only [startOf, ids, List.cons_append, List.map_cons, List.head?_cons, Option.some_or, ne_eq, Option.some.injEq]
          intro he
          exact hnd.1.2 (by simp [he])
      refine ⟨h2, ?_, by simpa only [Abs.set, upd_upd] using r2⟩
      rw [FHeap.eraseRangeLoop, if_neg hne, e1]
      exact e2

theorem feraseRange_op {h : FHeap V} {A : Abs V} {l : Nat} {P M Q : List (Nat × V)} (r : FRel h A)
    (hl : A.lists l = some (P ++ (M ++ Q))) :
    ∃ h', h.eraseRange (lastId l P) (startOf (ids Q) none) = some h' ∧ FRel h' (A.set l (P ++ Q)) := by
  have hp := r.path hl
  rw [ids, List.map_append, path_append] at hp
  have hnx : h.nextOf (lastId l P) = some (startOf (ids (M ++ Q)) none) := path_last hp.1
  have hlen := r.length_le hl
  simp only [List.length_append] at hlen
  rw [FHeap.eraseRange, hnx]
  simp only [Option.bind_eq_bind, Option.bind_some]
  exact feraseLoop_op M r hl (by omega)

theorem fcopyTruncate_op (left : V) : ∀ (vs : List V) {fail : Option Nat} {h : FHeap V} {A : Abs V} {l : Nat} {P Q : List (Nat × V)}
    (_ : FRel h A) (_ : A.lists l = some (P ++ Q)),
    if Abs.made vs.length fail < min Q.length vs.length then
      ∃ h' r, h.copyTruncateAfter (lastId l P) left (startOf (ids Q) none) vs fail = .exn (h', r) ∧
        FRel h' (A.set l (P ++ Abs.assignFail left Q vs (Abs.made vs.length fail)))
    else
      ∃ h', h.copyTruncateAfter (lastId l P) left (startOf (ids Q) none) vs fail =
          .ok (h', lastId l (P ++ Q.zipWith (fun x v => (x.1, v)) vs), vs.drop Q.length, fail.map (· - min Q.length vs.length)) ∧
        FRel h' (A.set l (P ++ (Q.zipWith (fun x v => (x.1, v)) vs ++ Q.drop vs.length))) := by
  intro vs
  induction vs with
  | nil =>
    intro fail h A l P Q r hl
    rw [if_neg (by simp)]
    refine ⟨h, ?_, ?_⟩
    · rw [FHeap.copyTruncateAfter]
      simp
    · simp only [List.zipWith_nil_right, List.length_nil, List.drop_zero, List.nil_append]
      rw [Abs.set_self hl]
      exact r
  | cons v vs ih =>
    intro fail h A l P Q r hl
    cases Q with
    | nil =>
      rw [if_neg (by simp)]
      refine ⟨h, ?_, ?_⟩
      · simp [FHeap.copyTruncateAfter, startOf]
      · simp only [List.zipWith_nil_left, List.drop_nil, List.append_nil]
        rw [Abs.set_self (by simpa using hl)]
        exact r
    | cons x Q =>
      obtain ⟨i, u⟩ := x
      have hid : startOf (ids ((i, u) :: Q)) none = some i := rfl
      rw [hid]
      by_cases hf : fail = some 0
      · subst hf
        rw [if_pos (by simp [Abs.made])]
        obtain ⟨h1, e1, _, _, r1⟩ := fsetVal_spec (w := left) r hl
        refine ⟨h1, (lastId l P, v :: vs, some 0), ?_, ?_⟩
        · simp [FHeap.copyTruncateAfter, e1]
        · simp only [Abs.made, Nat.zero_min, Abs.assignFail]
          exact r1
      · obtain ⟨h1, e1, hN, _, r1⟩ := fsetVal_spec (w := v) r hl
        have hnx : h.nextOf i = some (startOf (ids Q) none) := by
          have hp := r.path hl
          rw [ids, List.map_append, path_append] at hp
          exact (path_cons_tail.1 (show PathTo h.nextOf i (ids Q) none from hp.2)).1
        have hlast : lastId l (P ++ [(i, v)]) = i := by simp [lastId, ids]
        have hstep : h.copyTruncateAfter (lastId l P) left (some i) (v :: vs) fail =
            h1.copyTruncateAfter (lastId l (P ++ [(i, v)])) left (startOf (ids Q) none) vs (fail.map (· - 1)) := by
          rw [hlast, FHeap.copyTruncateAfter, if_neg hf, e1, hnx]
        have := ih (fail := fail.map (· - 1)) (l := l) (P := P ++ [(i, v)]) (Q := Q) r1 (by simp)
        rw [hstep, List.length_cons, made_succ _ _ hf, List.length_cons]
        by_cases hlt : Abs.made vs.length (fail.map (· - 1)) < min Q.length vs.length
        · rw [if_pos hlt] at this
          rw [if_pos (by omega)]
          obtain ⟨h2, rr, e2, r2⟩ := this
          refine ⟨h2, rr, e2, ?_⟩
          simp only [Abs.set, upd_upd, List.append_assoc, Abs.assignFail] at r2 ⊢
          exact r2
        · rw [if_neg hlt] at this
          rw [if_neg (by omega)]
          obtain ⟨h2, e2, r2⟩ := this
          refine ⟨h2, ?_, ?_⟩
          · rw [e2]
            simp only [List.drop_succ_cons, Option.map_map, List.append_assoc, List.zipWith_cons_cons, List.singleton_append]
            congr 5
            funext k
            simp only [Function.comp]
            omega
          · simp only [Abs.set, upd_upd, List.append_assoc, List.zipWith_cons_cons, List.drop_succ_cons] at r2 ⊢
            exact r2

theorem fassign_op {h : FHeap V} {A : Abs V} {l : Nat} {vs : List V} {left : V} {fail : Option Nat} {xs} (r : FRel h A) (hl : A.lists l = some xs) :
    ∃ h', h.assign l vs left fail = Out.of (A.fassign l vs left fail).2 h' ∧ FRel h' (A.fassign l vs left fail).1 := by
  have hfirst := (path_cons_tail.1 (r.path hl)).1
  have hct := fcopyTruncate_op left vs (fail := fail) (P := []) (Q := xs) r (by simpa using hl)
  unfold Abs.fassign
  simp only [Abs.at_of hl]
  by_cases hlt : Abs.made vs.length fail < min xs.length vs.length
  · rw [if_pos hlt] at hct
    rw [if_pos hlt]
    obtain ⟨h1, rr, e1, r1⟩ := hct
    have e1 : h.copyTruncateAfter l left (startOf (ids xs) none) vs fail = _ := e1
    refine ⟨h1, ?_, by simpa using r1⟩
    simp only [FHeap.assign, hfirst, e1, Out.of_true]
  · rw [if_neg hlt] at hct
    rw [if_neg hlt]
    obtain ⟨h1, e1, r1⟩ := hct
    simp only [List.nil_append] at r1 e1
    have e1 : h.copyTruncateAfter l left (startOf (ids xs) none) vs fail = _ := e1
    generalize hZ : xs.zipWith (fun x v => (x.1, v)) vs = Z at r1 e1
    obtain ⟨h2, e2, r2⟩ := feraseRange_op (l := l) (P := Z) (M := xs.drop vs.length) (Q := []) r1 (by simp [Abs.set])
    have e2 : h1.eraseRange (lastId l Z) none = _ := e2
    obtain ⟨h3, e3, r3⟩ := fappend_op (vs.drop xs.length) (fail := fail.map (· - min xs.length vs.length)) (l := l) (P := Z) (Q := []) r2
      (by simp [Abs.set])
    have hmade : Abs.made (vs.drop xs.length).length (fail.map (· - min xs.length vs.length)) = Abs.made vs.length fail - xs.length := by
      have hle := made_le vs.length fail
      cases fail with
      | none => simp [Abs.made]
      | some k =>
        simp only [Abs.made, Option.map_some, List.length_drop] at hlt ⊢
        omega
    refine ⟨h3, ?_, ?_⟩
    · simp only [FHeap.assign, hfirst, e1, e2, e3, hmade]
      congr 1
      rw [decide_eq_decide, List.length_drop]
      have hle := made_le vs.length fail
      omega
    · rw [hmade] at r3
      simp only [Abs.set, Abs.use, upd_upd, List.append_nil] at r3 ⊢
      exact r3

theorem fsplice_op {h : FHeap V} {A : Abs V} {l pos o bf bl : Nat} (r : FRel h A) (hp : A.fpre (.spliceAfter l pos o bf bl)) :
    ∃ h', h.spliceAfter l pos o bf bl = some h' ∧ FRel h' (A.fspec (.spliceAfter l pos o bf bl)).1 := by
  obtain ⟨⟨xs, hl⟩, ⟨ys, ho⟩, hlo, vp, vf, vl, hlen⟩ := hp
  rw [Abs.at_of hl] at vp
  rw [Abs.at_of ho] at vf vl hlen
  obtain ⟨cp, lp⟩ := r.cut hl vp
  obtain ⟨cf, lf⟩ := r.cut ho vf
  obtain ⟨cl, ll⟩ := r.cut ho vl
  simp only [Abs.fspec, Abs.at_of hl, Abs.at_of ho]
  generalize upTo l pos xs = P at *
  generalize behind l pos xs = Q at *
  generalize upTo o bf ys = R at *
  generalize behind o bf ys = S' at *
  generalize upTo o bl ys = R' at *
  generalize behind o bl ys = S at *
  obtain ⟨M, hM⟩ : ∃ M, R' = R ++ M := by
    have h1 : R <+: ys := ⟨S', cf.symm⟩
    have h2 : R' <+: ys := ⟨S, cl.symm⟩
    obtain ⟨M, hM⟩ := List.prefix_of_prefix_length_le h1 h2 hlen
    exact ⟨M, hM.symm⟩
  subst hM
  rw [List.drop_left]
  subst cp
  obtain ⟨h', e, r'⟩ := fsplice_spec (M := M) (S := S) (R := R) (P := P) (Q := Q) r hlo hl (by rw [ho, cl, List.append_assoc])
  rw [lp, lf, ll] at e
  refine ⟨h', e, ?_⟩
  simp only [Abs.set, List.append_assoc]
  exact r'

/-- One operation. -/
theorem fstep_refines (h : FHeap V) (A : Abs V) (op : FOp V) (r : FRel h A) (hp : A.fpre op) :
    ∃ h', fstep h op = Out.of (A.fspec op).2 h' ∧ FRel h' (A.fspec op).1 := by
  cases op with
  | new => exact ⟨_, rfl, (fmakeList_spec r).2⟩
  | newFrom vs fail => exact fmakeFrom_op r hp
  | copyOf src fail =>
    obtain ⟨⟨xs, hs⟩, hf⟩ := hp
    rw [Abs.at_of hs] at hf
    obtain ⟨h', e, r'⟩ := fmakeFrom_op (vs := xs.map (·.2)) (fail := fail) r (by simp only [Abs.fpre, List.length_map]; exact hf)
    refine ⟨h', ?_, ?_⟩
    · simp only [fstep, FHeap.copyOf, fforward_spec r hs, e]
      simp only [Abs.fspec, Abs.at_of hs]
    · simp only [Abs.fspec, Abs.at_of hs] at r' ⊢
      exact r'
  | moveOf src =>
    obtain ⟨xs, hs⟩ := hp
    obtain ⟨hnone, r1⟩ := fmakeList_spec r
    have hst : src ≠ h.next := by rintro rfl; rw [hnone] at hs; cases hs
    rw [r.same] at r1
    obtain ⟨h2, e2, r2⟩ := fswap_spec (a := h.next) (b := src) (xs := []) (ys := xs) r1 (by simp) (by simp only [upd_other _ _ hst]; exact hs)
    refine ⟨h2, by simp only [fstep, FHeap.moveOf, e2, ptr, Abs.fspec, Out.of_false], ?_⟩
    simp only [Abs.fspec, Abs.at_of hs, Abs.set, Abs.use, r.same]
    simp only [upd_upd] at r2
    exact r2
  | drop l =>
    obtain ⟨xs, hl⟩ := hp
    obtain ⟨h1, e1, r1⟩ := fclear_spec r hl
    obtain ⟨h2, e2, r2⟩ := ffreeList_spec (l := l) r1 (upd_same ..)
    refine ⟨h2, by simp only [fstep, FHeap.dropList, Option.bind_eq_bind, e1, Option.bind_some, e2, ptr, Abs.fspec, Out.of_false], ?_⟩
    simp only [upd_upd] at r2
    exact r2
  | pushFront l v fail =>
    obtain ⟨xs, hl⟩ := hp
    cases fail with
    | true => exact ⟨h, rfl, r⟩
    | false =>
      obtain ⟨h', e, r'⟩ := finsert_spec (P := []) r hl v
      have e : h.insertNode l v = some h' := e
      refine ⟨h', by simp [fstep, FHeap.insertAfter, e, ptr, Abs.fspec], ?_⟩
      simp only [Abs.fspec, Abs.at_of hl, Bool.false_eq_true, if_false]
      exact r'
  | popFront l =>
    obtain ⟨⟨xs, hl⟩, hne⟩ := hp
    rw [Abs.at_of hl] at hne
    cases xs with
    | nil => exact absurd rfl hne
    | cons x xs =>
      obtain ⟨h', e, r'⟩ := ferase_spec (P := []) r hl
      have e : h.eraseAfter l = some (h', startOf (ids xs) none) := e
      refine ⟨h', by simp only [fstep, e, Option.map_some, ptr, Abs.fspec, Out.of_false], ?_⟩
      simp only [Abs.fspec, Abs.at_of hl]
      exact r'
  | insertAfter l pos v fail =>
    obtain ⟨⟨xs, hl⟩, vp⟩ := hp
    rw [Abs.at_of hl] at vp
    cases fail with
    | true => exact ⟨h, rfl, r⟩
    | false =>
      obtain ⟨cp, lp⟩ := r.cut hl vp
      simp only [Abs.fspec, Abs.at_of hl, Bool.false_eq_true, if_false]
      generalize upTo l pos xs = P at *
      generalize behind l pos xs = Q at *
      subst cp
      obtain ⟨h', e, r'⟩ := finsert_spec r hl v
      rw [lp] at e
      exact ⟨h', by simp [fstep, FHeap.insertAfter, e, ptr], r'⟩
  | appendAfter l pos vs fail =>
    obtain ⟨⟨xs, hl⟩, vp⟩ := hp
    rw [Abs.at_of hl] at vp
    obtain ⟨cp, lp⟩ := r.cut hl vp
    simp only [Abs.fspec, Abs.at_of hl]
    generalize upTo l pos xs = P at *
    generalize behind l pos xs = Q at *
    subst cp
    obtain ⟨h', e, r'⟩ := fappend_op vs (fail := fail) r hl
    rw [lp] at e
    exact ⟨h', e, r'⟩
  | eraseAfter l pos =>
    obtain ⟨⟨xs, hl⟩, vp, hne⟩ := hp
    rw [Abs.at_of hl] at vp hne
    obtain ⟨cp, lp⟩ := r.cut hl vp
    simp only [Abs.fspec, Abs.at_of hl]
    generalize upTo l pos xs = P at *
    generalize behind l pos xs = Q at *
    subst cp
    cases Q with
    | nil => exact absurd rfl hne
    | cons q Q =>
      obtain ⟨h', e, r'⟩ := ferase_spec r hl
      rw [lp] at e
      exact ⟨h', by simp only [fstep, e, Option.map_some, ptr, Out.of_false], r'⟩
  | eraseRange l pos last =>
    obtain ⟨⟨xs, hl⟩, vp, hq⟩ := hp
    rw [Abs.at_of hl] at vp hq
    obtain ⟨cp, lp⟩ := r.cut hl vp
    simp only [Abs.fspec, Abs.at_of hl]
    generalize upTo l pos xs = P at *
    generalize behind l pos xs = Q at *
    subst cp
    cases last with
    | none =>
      obtain ⟨h', e, r'⟩ := feraseRange_op (P := P) (M := Q) (Q := []) r (by simpa using hl)
      rw [lp] at e
      have e : h.eraseRange pos none = some h' := e
      exact ⟨h', by simp only [fstep, e, ptr, Out.of_false], r'⟩
    | some q =>
      obtain ⟨M, v, S, rfl, hM⟩ := cut_of_mem hq
      obtain ⟨h', e, r'⟩ := feraseRange_op (P := P) (M := M) (Q := (q, v) :: S) r hl
      rw [lp] at e
      have e : h.eraseRange pos (some q) = some h' := e
      simp only [from_cut hM]
      exact ⟨h', by simp only [fstep, e, ptr, Out.of_false], r'⟩
  | spliceAfter l pos o bf bl =>
    obtain ⟨h', e, r'⟩ := fsplice_op r hp
    exact ⟨h', by simp only [fstep, e, ptr, Abs.fspec, Out.of_false], r'⟩
  | clear l =>
    obtain ⟨xs, hl⟩ := hp
    obtain ⟨h', e, r'⟩ := fclear_spec r hl
    exact ⟨h', by simp only [fstep, e, ptr, Abs.fspec, Out.of_false], r'⟩
  | swap a b =>
    obtain ⟨⟨xs, ha⟩, ⟨ys, hb⟩⟩ := hp
    obtain ⟨h', e, r'⟩ := fswap_spec r ha hb
    refine ⟨h', by simp only [fstep, e, ptr, Abs.fspec, Out.of_false], ?_⟩
    simp only [Abs.fspec, Abs.at_of ha, Abs.at_of hb]
    exact r'
  | moveAssign a b =>
    obtain ⟨⟨xs, ha⟩, ⟨ys, hb⟩⟩ := hp
    obtain ⟨h', e, r'⟩ := fswap_spec r ha hb
    refine ⟨h', by simp only [fstep, e, ptr, Abs.fspec, Out.of_false], ?_⟩
    simp only [Abs.fspec, Abs.at_of ha, Abs.at_of hb]
    exact r'
  | assign l vs left fail =>
    obtain ⟨xs, hl⟩ := hp
    exact fassign_op r hl
  | copyAssign l src left fail =>
    obtain ⟨⟨xs, hl⟩, ⟨ys, hs⟩⟩ := hp
    simp only [fstep, FHeap.copyAssign, Abs.fspec]
    by_cases hls : l = src
    · rw [if_pos hls, if_pos hls]; exact ⟨h, rfl, r⟩
    · rw [if_neg hls, if_neg hls, fforward_spec r hs, Abs.at_of hs]
      exact fassign_op r hl

/-! ## Histories -/

/-- Nothing exists yet. -/
def FHeap.start (V : Type) : FHeap V := ⟨fun _ => none, 0⟩

theorem frel_start (V : Type) : FRel (FHeap.start V) (Abs.start V) where
  fresh a _ := rfl
  same := rfl
  path hk := by cases hk
  nodup hk := by cases hk
  apart hk := by cases hk
  sent := ⟨fun ha => (by cases ha), fun ⟨_, hk⟩ => (by cases hk)⟩
  node := ⟨fun ha => (by cases ha), fun ⟨_, _, hk, _⟩ => (by cases hk)⟩

/-- What a user observes of the lists: traversal terminates and gives the sequence, the chain
visits distinct addresses and ends in a null link, every allocated node is in exactly one list,
every sentinel is the one of an existing list. -/
structure FShows (h : FHeap V) (A : Abs V) : Prop where
  forward : ∀ {l xs}, A.lists l = some xs → h.forward l = some (xs.map (·.2))
  chain : ∀ {l xs}, A.lists l = some xs → PathTo h.nextOf l (ids xs) none
  distinct : ∀ {l xs}, A.lists l = some xs → (l :: ids xs).Nodup
  notShared : ∀ {k k' xs ys i}, A.lists k = some xs → A.lists k' = some ys → i ∈ ids xs → i ∈ ids ys → k = k'
  notLost : ∀ {a v}, h.valOf a = some (some v) ↔ ∃ l xs, A.lists l = some xs ∧ (a, v) ∈ xs
  sentinels : ∀ {a}, h.valOf a = some none ↔ A.Has a

theorem FRel.shows {h : FHeap V} {A : Abs V} (r : FRel h A) : FShows h A where
  forward hl := fforward_spec r hl
  chain hl := r.path hl
  distinct hl := r.nodupAll hl
  notShared := r.apart
  notLost := r.node
  sentinels := r.sent

/-- C32. Any history of operations on any number of singly linked lists, with any pattern of
exceptions, runs without undefined behaviour and leaves every list an acyclic chain that holds
the sequence the specification says; nodes are neither lost nor shared.

Missing from the full claim: construction from a range may throw only before its first element
is made (`C32_failed_copy_violated`). -/
theorem C32_history_partial (ops : List (FOp V)) (hp : PreHist Abs.fspec Abs.fpre (Abs.start V) ops) :
    ∃ h, runHist fstep (FHeap.start V) ops = some (h, (specHist Abs.fspec (Abs.start V) ops).2) ∧
      FShows h (specHist Abs.fspec (Abs.start V) ops).1 := by
  obtain ⟨h, e, r⟩ := runHist_refines (R := FRel) fstep_refines ops (FHeap.start V) (Abs.start V) (frel_start V) hp
  exact ⟨h, e, r.shows⟩

/-- C32: a node that has been destroyed cannot be destroyed again. -/
theorem C32_destroyed_once {h h' : FHeap V} {a : Nat} (hd : FHeap.destroyNode h a = some h') : FHeap.destroyNode h' a = none := by
  unfold FHeap.destroyNode at hd
  split at hd
  · cases hd
    unfold FHeap.destroyNode
    simp
  · cases hd

/-- C32. The iterator that `erase_after` returns refers to the element behind the erased one. -/
theorem C32_erase_after_result {h : FHeap V} {A : Abs V} {l : Nat} {P Q : List (Nat × V)} {x : Nat × V} (r : FRel h A)
    (hl : A.lists l = some (P ++ x :: Q)) :
    ∃ h', h.eraseAfter (lastId l P) = some (h', (Q.head?).map (·.1)) ∧ FShows h' (A.set l (P ++ Q)) := by
  obtain ⟨h', e, r'⟩ := ferase_spec r hl
  refine ⟨h', ?_, r'.shows⟩
  rw [e]
  cases Q <;> rfl

/-- A concrete history: two lists, insertions in the middle, a splice between the lists, a
failed insertion, an erasure of a range, an assignment that reuses nodes. -/
def fdemo : List (FOp Nat) :=
  [.new, .newFrom [7, 8, 9] none, .pushFront 0 10 false, .insertAfter 0 5 20 false, .appendAfter 0 5 [11, 12, 13] (some 2),
   .spliceAfter 0 7 1 2 4, .eraseRange 0 5 (some 3), .pushFront 1 1 true, .assign 1 [4, 5] 0 none, .swap 0 1, .moveOf 0, .eraseAfter 1 5, .drop 0]

example : PreHist Abs.fspec Abs.fpre (Abs.start Nat) fdemo := by
  refine ⟨?_, ?_, ?_, ?_, ?_, ?_, ?_, ?_, ?_, ?_, ?_, ?_, ?_, trivial⟩ <;>
    simp [Abs.fpre, Abs.Has, Abs.fspec, Abs.fassign, Abs.start, Abs.set, Abs.use, Abs.at', Abs.made, upd, ValidPos,
      before, fromPos, upTo, behind, ids, number, List.takeWhile, List.dropWhile]

example : (runHist fstep (FHeap.start Nat) fdemo).map (fun p => (p.2, p.1.forward 1, p.1.forward 10, p.1.forward 0)) =
    some ([false, false, false, false, true, false, false, true, false, false, false, false, false],
      some [10, 9, 12, 20], some [4, 5], none) := by rfl

/-- Every reachable state satisfies the hypothesis of `C32_erase_after_result`; here one with
a list of four elements. -/
example : (∃ h, FRel h (specHist Abs.fspec (Abs.start Nat) fdemo).1) ∧
    (specHist Abs.fspec (Abs.start Nat) fdemo).1.lists 1 = some ([(5, 10)] ++ (4, 9) :: [(8, 12), (6, 20)]) := by
  refine ⟨?_, by rfl⟩
  have hp : PreHist Abs.fspec Abs.fpre (Abs.start Nat) fdemo := by
    refine ⟨?_, ?_, ?_, ?_, ?_, ?_, ?_, ?_, ?_, ?_, ?_, ?_, ?_, trivial⟩ <;>
      simp [Abs.fpre, Abs.Has, Abs.fspec, Abs.fassign, Abs.start, Abs.set, Abs.use, Abs.at', Abs.made, upd, ValidPos,
        before, fromPos, upTo, behind, ids, number, List.takeWhile, List.dropWhile]
  obtain ⟨h, _, r⟩ := runHist_refines (R := FRel) fstep_refines fdemo (FHeap.start Nat) (Abs.start Nat) (frel_start Nat) hp
  exact ⟨h, r⟩

/-- If copying the second element throws, the node made for the first is never freed. -/
theorem C32_failed_copy_violated :
    ∃ h, runHist fstep (FHeap.start Nat) [.newFrom [10, 20] (some 1)] = some (h, [true]) ∧
      h.valOf 1 = some (some 10) ∧ ∀ a, h.valOf a ≠ some none := by
  refine ⟨_, rfl, rfl, fun a => ?_⟩
  match a with
  | 0 => exact (by decide : (none : Option (Option Nat)) ≠ some none)
  | 1 => exact (by decide : (some (some 10) : Option (Option Nat)) ≠ some none)
  | n + 2 => exact (by decide : (none : Option (Option Nat)) ≠ some none)

end Verif.Lists
