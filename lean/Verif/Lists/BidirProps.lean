import Verif.Lists.Bidir

/-!
# C31: any history of operations keeps every doubly linked list well formed
-/

namespace Verif.Lists

variable {V : Type}

open LHeap

/-! ## Sequences of nodes -/

@[simp] theorem Abs.at_of {A : Abs V} {l : Nat} {xs : List (Nat × V)} (h : A.lists l = some xs) : A.at' l = xs := by
  simp [Abs.at', h]

theorem Abs.set_self {A : Abs V} {l : Nat} {xs : List (Nat × V)} (h : A.lists l = some xs) : A.set l xs = A := by
  simp only [Abs.set, upd_self h]

theorem before_from (p : Nat) (xs : List (Nat × V)) : before p xs ++ fromPos p xs = xs := List.takeWhile_append_dropWhile

theorem before_of_not_mem {p : Nat} {xs : List (Nat × V)} (h : p ∉ ids xs) : before p xs = xs := by
  induction xs with
  | nil => rfl
  | cons x xs ih =>
    simp only [ids, List.map_cons, List.mem_cons, not_or] at h
    rw [before, List.takeWhile_cons_of_pos (by simpa using Ne.symm h.1)]
    exact congrArg _ (ih h.2)

theorem from_of_not_mem {p : Nat} {xs : List (Nat × V)} (h : p ∉ ids xs) : fromPos p xs = [] := by
  have := before_from p xs
  rw [before_of_not_mem h] at this
  simpa using this

theorem before_cut {p : Nat} {P Q : List (Nat × V)} {v : V} (h : p ∉ ids P) : before p (P ++ (p, v) :: Q) = P := by
  unfold before
  rw [List.takeWhile_append_of_pos]
  · simp
  · intro x hx
    simp
    rintro rfl
    exact h (by simp only [ids, List.mem_map]; exact ⟨x, hx, rfl⟩)

theorem from_cut {p : Nat} {P Q : List (Nat × V)} {v : V} (h : p ∉ ids P) : fromPos p (P ++ (p, v) :: Q) = (p, v) :: Q := by
  have := before_from p (P ++ (p, v) :: Q)
  rw [before_cut h] at this
  exact List.append_cancel_left this

/-- A node of a list, and the rest of the list. -/
theorem cut_of_mem {p : Nat} {xs : List (Nat × V)} (h : p ∈ ids xs) : ∃ P v Q, xs = P ++ (p, v) :: Q ∧ p ∉ ids P := by
  induction xs with
  | nil => cases h
  | cons x xs ih =>
    by_cases hx : x.1 = p
    · exact ⟨[], x.2, xs, by rw [← hx]; rfl, by simp [ids]⟩
    · have h' : p ∈ ids xs := by
        simp only [ids, List.map_cons, List.mem_cons] at h
        rcases h with q | q
        · exact absurd q.symm hx
        · exact q
      obtain ⟨P, v, Q, e, hP⟩ := ih h'
      refine ⟨x :: P, v, Q, by rw [e]; rfl, ?_⟩
      simp only [ids, List.map_cons, List.mem_cons]
      rintro (q | q)
      · exact hx q.symm
      · exact hP q

theorem head_from {p l : Nat} {xs : List (Nat × V)} (hp : ValidPos l xs p) (hl : l ∉ ids xs) : headId (fromPos p xs) l = p := by
  by_cases hm : p ∈ ids xs
  · obtain ⟨P, v, Q, e, hP⟩ := cut_of_mem hm
    rw [e, from_cut hP]
    rfl
  · rcases hp with rfl | hp
    · rw [from_of_not_mem hm]; rfl
    · exact absurd hp hm

theorem from_from (p : Nat) (xs : List (Nat × V)) : fromPos p (fromPos p xs) = fromPos p xs := by
  by_cases hm : p ∈ ids xs
  · obtain ⟨P, v, Q, e, hP⟩ := cut_of_mem hm
    rw [e, from_cut hP]
    exact from_cut (P := []) (by simp [ids])
  · rw [from_of_not_mem hm]; rfl

theorem before_headId {k : Nat} {xs : List (Nat × V)} : before (headId xs k) xs = [] := by
  cases xs with
  | nil => rfl
  | cons x xs => simp [before, headId, ids]

theorem from_headId {k : Nat} {xs : List (Nat × V)} : fromPos (headId xs k) xs = xs := by
  have := before_from (headId xs k) xs
  rw [before_headId] at this
  simpa using this

theorem before_self_from (p : Nat) (xs : List (Nat × V)) : before p (fromPos p xs) = [] := by
  by_cases hm : p ∈ ids xs
  · obtain ⟨P, v, Q, e, hP⟩ := cut_of_mem hm
    rw [e, from_cut hP]
    simp [before]
  · rw [from_of_not_mem hm]; rfl

theorem outside_self (p : Nat) (xs : List (Nat × V)) : outside p p xs = xs := by
  rw [outside, from_from, before_from]

theorem within_self (p : Nat) (xs : List (Nat × V)) : within p p xs = [] := before_self_from p xs

theorem range_split (first last : Nat) (xs : List (Nat × V)) :
    xs = before first xs ++ (within first last xs ++ fromPos last (fromPos first xs)) := by
  rw [within, before_from, before_from]

theorem within_all {l : Nat} {xs : List (Nat × V)} (hl : l ∉ ids xs) : within (headId xs l) l xs = xs := by
  rw [within, from_headId, before_of_not_mem hl]

theorem outside_all {l : Nat} {xs : List (Nat × V)} (hl : l ∉ ids xs) : outside (headId xs l) l xs = [] := by
  rw [outside, before_headId, from_headId, from_of_not_mem hl]
  rfl

theorem validRange_all {l : Nat} {xs : List (Nat × V)} : ValidRange l xs (headId xs l) l := by
  refine ⟨?_, Or.inl rfl⟩
  rcases headId_uses l xs with q | q
  · exact Or.inl q
  · exact Or.inr q

/-- One node. -/
theorem one_node {l : Nat} {P Q : List (Nat × V)} {x : Nat × V} (hn : (ids (P ++ x :: Q)).Nodup) (hl : l ∉ ids (P ++ x :: Q)) :
    within x.1 (headId Q l) (P ++ x :: Q) = [x] ∧ outside x.1 (headId Q l) (P ++ x :: Q) = P ++ Q ∧
      ValidRange l (P ++ x :: Q) x.1 (headId Q l) ∧ x.1 ≠ headId Q l := by
  have he : ids (P ++ x :: Q) = ids P ++ (x.1 :: ids Q) := by simp [ids]
  rw [he] at hn hl
  have h1 := List.nodup_append.1 hn
  have h2 := List.nodup_cons.1 h1.2.1
  have hP : x.1 ∉ ids P := fun q => h1.2.2 _ q _ (by simp) rfl
  have hc : fromPos x.1 (P ++ x :: Q) = x :: Q := from_cut hP
  have hb : before x.1 (P ++ x :: Q) = P := before_cut hP
  have hlx : l ≠ x.1 := fun e => hl (by simp [e])
  have hne : x.1 ≠ headId Q l := by
    intro e
    rcases headId_uses l Q with q | q
    · exact hlx (by rw [e, q])
    · rw [← e] at q; exact h2.1 q
  refine ⟨?_, ?_, ⟨Or.inr (by simp [ids]), ?_⟩, hne⟩
  · rw [within, hc]
    have : before (headId Q l) (x :: Q) = x :: before (headId Q l) Q := by
      simp only [before]
      rw [List.takeWhile_cons_of_pos (by simpa using hne)]
    rw [this, before_headId]
  · rw [outside, hc, hb]
    have : fromPos (headId Q l) (x :: Q) = fromPos (headId Q l) Q := by
      simp only [fromPos]
      rw [List.dropWhile_cons_of_pos (by simpa using hne)]
    rw [this, from_headId]
  · rw [hc]
    rcases headId_uses l Q with q | q
    · exact Or.inl q
    · exact Or.inr (by simp only [ids, List.map_cons, List.mem_cons]; exact Or.inr q)

theorem number_append (n : Nat) : ∀ (vs ws : List V), number n (vs ++ ws) = number n vs ++ number (n + vs.length) ws := by
  intro vs
  induction vs generalizing n with
  | nil => intro ws; rfl
  | cons v vs ih =>
    intro ws
    simp only [List.cons_append, number, List.length_cons, ih]
    congr 3
    omega

theorem number_length (n : Nat) (vs : List V) : (number n vs).length = vs.length := by
  induction vs generalizing n with
  | nil => rfl
  | cons v vs ih => simp [number, ih]

theorem number_vals (n : Nat) (vs : List V) : (number n vs).map (·.2) = vs := by
  induction vs generalizing n with
  | nil => rfl
  | cons v vs ih => simp [number, ih]

/-! ## Operations -/

theorem RelD.notMem {h : LHeap V} {A : Abs V} {D} (r : RelD h A D) {l xs} (hl : A.lists l = some xs) : l ∉ ids xs :=
  fun q => r.sentNe hl hl q rfl

theorem splice_op {h : LHeap V} {A : Abs V} {l pos o first last : Nat} (r : Rel h A) (hp : A.pre (.splice l pos o first last)) :
    ∃ h', h.splice pos first last = some h' ∧ Rel h' (A.spec (.splice l pos o first last)).1 := by
  obtain ⟨⟨ys, hl⟩, ⟨xs, ho⟩, hr, hv, hne⟩ := hp
  simp only [Abs.spec]
  rw [Abs.at_of ho] at hr hv ⊢
  by_cases hfl : first = last
  · subst hfl
    rw [outside_self, within_self, Abs.set_self ho, Abs.at_of hl, List.append_nil, before_from, Abs.set_self hl]
    exact ⟨h, by simp [LHeap.splice], r⟩
  · have hno := r.notMem ho
    have hfirst : first ∈ ids xs := by
      rcases hr.1 with q | q
      · rcases hr.2 with w | w
        · exact absurd (q.trans w.symm) hfl
        · rw [q, from_of_not_mem hno] at w; cases w
      · exact q
    obtain ⟨P, v, Q, e, hP⟩ := cut_of_mem hfirst
    have hM : within first last xs ≠ [] := by
      rw [within, e, from_cut hP, before, List.takeWhile_cons_of_pos (by simpa using hfl)]
      simp
    have hfirstHead : headId (within first last xs) o = first := by
      rw [within, e, from_cut hP, before, List.takeWhile_cons_of_pos (by simpa using hfl)]
      rfl
    have hsub : ∀ i, i ∈ ids (fromPos first xs) → i ∈ ids xs := by
      intro i hi
      rw [← before_from first xs]
      simp only [ids, List.map_append, List.mem_append]
      exact Or.inr hi
    have hlastHead : headId (fromPos last (fromPos first xs)) o = last :=
      head_from hr.2 (fun q => hno (hsub _ q))
    have ho' : A.lists o = some (before first xs ++ (within first last xs ++ fromPos last (fromPos first xs))) := by
      rw [← range_split]; exact ho
    generalize hA' : A.set o (outside first last xs) = A' at hv ⊢
    have hAl : ∃ zs, A'.lists l = some zs ∧ l ∉ ids zs := by
      subst hA'
      by_cases hlo : l = o
      · subst hlo
        refine ⟨outside first last xs, by simp [Abs.set], ?_⟩
        intro q
        apply hno
        rw [range_split first last xs]
        simp only [outside, ids, List.map_append, List.mem_append] at q ⊢
        rcases q with q | q
        · exact Or.inl q
        · exact Or.inr (Or.inr q)
      · exact ⟨ys, by simp only [Abs.set, upd_other _ _ hlo]; exact hl, r.notMem hl⟩
    obtain ⟨zs, hz, hlz⟩ := hAl
    rw [Abs.at_of hz] at hv ⊢
    have hposHead : headId (fromPos pos zs) l = pos := head_from hv hlz
    obtain ⟨h', e', r'⟩ := splice_spec (l := l) (R := before pos zs) (S := fromPos pos zs) r ho' hM
      (by rw [before_from]; subst hA'; exact hz) (by rw [hposHead, hlastHead]; exact hne hfl)
    rw [hposHead, hfirstHead, hlastHead] at e'
    refine ⟨h', e', ?_⟩
    subst hA'
    simpa [Abs.set, outside] using r'

theorem spliceAll_op {h : LHeap V} {A : Abs V} {l pos o : Nat} (r : Rel h A) (hp : A.pre (.spliceAll l pos o)) :
    ∃ h', h.spliceAll pos o = some h' ∧ Rel h' (A.spec (.spliceAll l pos o)).1 := by
  obtain ⟨⟨ys, hl⟩, ⟨xs, ho⟩, hlo, hv⟩ := hp
  have hno := r.notMem ho
  have hfirst := ring_first (r.ring ho)
  rw [Abs.at_of hl] at hv
  have hpo : pos ≠ o := by
    rintro rfl
    rcases hv with q | q
    · exact hlo q.symm
    · exact r.sentNe hl ho q rfl
  have hpre : A.pre (.splice l pos o (headId xs o) o) := by
    refine ⟨⟨ys, hl⟩, ⟨xs, ho⟩, ?_, ?_, fun _ => hpo⟩
    · rw [Abs.at_of ho]; exact validRange_all
    · rw [Abs.at_of (xs := ys)]
      · exact hv
      · simp only [Abs.set, upd_other _ _ hlo]; exact hl
  obtain ⟨h', e, r'⟩ := splice_op r hpre
  refine ⟨h', ?_, ?_⟩
  · unfold LHeap.spliceAll
    rw [hfirst]
    exact e
  · simp only [Abs.spec] at r' ⊢
    rw [Abs.at_of ho, within_all hno, outside_all hno] at r'
    rw [Abs.at_of ho]
    exact r'

theorem spliceOne_op {h : LHeap V} {A : Abs V} {l pos o it : Nat} (r : Rel h A) (hp : A.pre (.spliceOne l pos o it)) :
    ∃ h', h.spliceOne pos o it = some h' ∧ Rel h' (A.spec (.spliceOne l pos o it)).1 := by
  obtain ⟨⟨ys, hl⟩, ⟨xs, ho⟩, hi, hv, hne⟩ := hp
  have hno := r.notMem ho
  have hnd := r.nodup ho
  have hring := r.ring ho
  simp only [Abs.spec]
  rw [Abs.at_of ho] at hi hv hne ⊢
  obtain ⟨P, v, Q, e, hP⟩ := cut_of_mem hi
  subst e
  rw [from_cut hP, List.tail_cons] at hne
  obtain ⟨o1, o2, o3, o4⟩ := one_node hnd hno
  simp only at o1 o2 o3 o4
  have hnd' := hnd
  have he : ids (P ++ (it, v) :: Q) = ids P ++ (it :: ids Q) := by simp [ids]
  rw [he] at hnd'
  have hQ : it ∉ ids Q := (List.nodup_cons.1 (List.nodup_append.1 hnd').2.1).1
  have hPf : P.filter (·.1 ≠ it) = P := List.filter_eq_self.2 fun x hx => by
    simp only [decide_eq_true_eq]; rintro rfl; exact hP (by simp only [ids, List.mem_map]; exact ⟨x, hx, rfl⟩)
  have hQf : Q.filter (·.1 ≠ it) = Q := List.filter_eq_self.2 fun x hx => by
    simp only [decide_eq_true_eq]; rintro rfl; exact hQ (by simp only [ids, List.mem_map]; exact ⟨x, hx, rfl⟩)
  have hPe : P.filter (·.1 = it) = [] := List.filter_eq_nil_iff.2 fun x hx => by
    simp only [decide_eq_true_eq]; rintro rfl; exact hP (by simp only [ids, List.mem_map]; exact ⟨x, hx, rfl⟩)
  have hQe : Q.filter (·.1 = it) = [] := List.filter_eq_nil_iff.2 fun x hx => by
    simp only [decide_eq_true_eq]; rintro rfl; exact hQ (by simp only [ids, List.mem_map]; exact ⟨x, hx, rfl⟩)
  have f1 : (P ++ (it, v) :: Q).filter (·.1 = it) = [(it, v)] := by
    rw [List.filter_append, hPe, List.filter_cons_of_pos (by simp), hQe]; rfl
  have f2 : (P ++ (it, v) :: Q).filter (·.1 ≠ it) = P ++ Q := by
    rw [List.filter_append, hPf, List.filter_cons_of_neg (by simp), hQf]
  rw [f1, f2]
  rw [f2] at hv
  have hpre : A.pre (.splice l pos o it (headId Q o)) := by
    refine ⟨⟨ys, hl⟩, ⟨_, ho⟩, ?_, ?_, fun _ => hne⟩
    · rw [Abs.at_of ho]; exact o3
    · rw [Abs.at_of ho, o2]; exact hv
  obtain ⟨h', e, r'⟩ := splice_op r hpre
  refine ⟨h', ?_, ?_⟩
  · unfold LHeap.spliceOne
    have hnx : h.nextOf it = some (headId Q o) := by
      have := (ring_split (xs := P ++ [(it, v)]) (ys := Q)).1 (by simpa using hring)
      have h3 := this.2.2.1
      rw [lastId_append (k' := o) (by simp)] at h3
      exact h3
    rw [if_neg (fun q : it = o => hno (by rw [← q]; exact hi)), hnx]
    exact e
  · simp only [Abs.spec] at r'
    rw [Abs.at_of ho, o1, o2] at r'
    exact r'

theorem dropList_op {h : LHeap V} {A : Abs V} {l : Nat} {xs} (r : Rel h A) (hl : A.lists l = some xs) :
    ∃ h', h.dropList l = some h' ∧ Rel h' { A with lists := upd A.lists l none } := by
  obtain ⟨h1, e1, r1⟩ := clear_spec r hl
  obtain ⟨h2, e2, r2⟩ := freeList_spec (l := l) r1 (by simp)
  refine ⟨h2, ?_, ?_⟩
  · unfold LHeap.dropList; rw [e1]; exact e2
  · simp only [upd_upd] at r2; exact r2

theorem made_succ (n : Nat) (fail : Option Nat) (hf : fail ≠ some 0) :
    Abs.made (n + 1) fail = Abs.made n (fail.map (· - 1)) + 1 := by
  cases fail with
  | none => rfl
  | some k =>
    have : k ≠ 0 := fun e => hf (by rw [e])
    simp only [Abs.made, Option.map_some]
    omega

theorem append_op : ∀ (vs : List V) {fail : Option Nat} {h : LHeap V} {A : Abs V} {l : Nat} {xs} (_ : Rel h A) (_ : A.lists l = some xs),
    ∃ h', h.append l vs fail = Out.of (decide (Abs.made vs.length fail < vs.length)) h' ∧
      Rel h' ((A.set l (xs ++ number A.next (vs.take (Abs.made vs.length fail)))).use (Abs.made vs.length fail)) := by
  intro vs
  induction vs with
  | nil =>
    intro fail h A l xs r hl
    have hm : Abs.made 0 fail = 0 := by cases fail <;> simp [Abs.made]
    refine ⟨h, ?_, ?_⟩
    · simp [LHeap.append, hm]
    · simp [hm, number, Abs.set_self hl, Abs.use]
      exact r
  | cons v vs ih =>
    intro fail h A l xs r hl
    by_cases hf : fail = some 0
    · subst hf
      refine ⟨h, by simp [LHeap.append, LHeap.pushBack, Abs.made], ?_⟩
      simp [Abs.made, number, Abs.set_self hl, Abs.use]
      exact r
    · obtain ⟨h1, e1, r1⟩ := pushNode_spec r hl v
      obtain ⟨h2, e2, r2⟩ := ih (fail := fail.map (· - 1)) (l := l) r1 (xs := xs ++ [(A.next, v)]) (by simp)
      have hb : (fail == some 0) = false := by
        cases fail with
        | none => rfl
        | some k => simp at hf ⊢; exact hf
      refine ⟨h2, ?_, ?_⟩
      · rw [LHeap.append, LHeap.pushBack, hb]
        simp only [Bool.false_eq_true, if_false, e1, ptr, Out.andThen_ok, e2]
        congr 2
        rw [List.length_cons, made_succ _ _ hf]
        simp
      · rw [List.length_cons, made_succ _ _ hf]
        simp only [Abs.set, Abs.use, upd_upd, List.append_assoc] at r2 ⊢
        rw [List.take_succ_cons, number]
        have : A.next + (Abs.made vs.length (fail.map (· - 1)) + 1) = A.next + 1 + Abs.made vs.length (fail.map (· - 1)) := by omega
        rw [this]
        exact r2

theorem made_le (n : Nat) (fail : Option Nat) : Abs.made n fail ≤ n := by
  cases fail <;> simp [Abs.made]; omega

theorem makeFrom_op {h : LHeap V} {A : Abs V} {vs : List V} {fail : Option Nat} (r : Rel h A) (hp : A.pre (.newFrom vs fail)) :
    ∃ h', h.makeFrom vs fail = Out.of (A.spec (.newFrom vs fail)).2 h' ∧ Rel h' (A.spec (.newFrom vs fail)).1 := by
  obtain ⟨r1, hn⟩ := makeList_spec r
  obtain ⟨h2, e2, r2⟩ := append_op vs (fail := fail) (l := h.next) (xs := []) r1 (by simp)
  have hle := made_le vs.length fail
  simp only [Abs.spec]
  simp only [Abs.pre] at hp
  by_cases hlt : Abs.made vs.length fail < vs.length
  · have h0 : Abs.made vs.length fail = 0 := by omega
    rw [if_pos hlt]
    rw [h0] at e2 r2 hlt
    simp only [hlt, decide_true, Out.of_true] at e2
    have hl2 : ((({ lists := upd A.lists h.next (some []), next := A.next + 1 } : Abs V).set h.next
        ([] ++ number (A.next + 1) (List.take 0 vs))).use 0).lists h.next = some [] := by
      simp [Abs.set, Abs.use, number]
    obtain ⟨h3, e3, r3⟩ := freeList_spec r2 hl2
    refine ⟨h3, ?_, ?_⟩
    · simp only [LHeap.makeFrom]
      rw [e2]
      simp only [Out.of_true]
      unfold LHeap.freeList at e3
      split at e3
      · injection e3 with e3; rw [e3]
      · cases e3
    · simp only [Abs.set, Abs.use, upd_upd, upd_self hn] at r3 ⊢
      exact r3
  · have h0 : Abs.made vs.length fail = vs.length := by omega
    rw [if_neg hlt]
    rw [h0] at e2 r2
    simp only [Nat.lt_irrefl, decide_false, Out.of_false] at e2
    refine ⟨h2, ?_, ?_⟩
    · simp only [LHeap.makeFrom, e2, Out.of_false]
    · simp only [Abs.set, Abs.use, upd_upd, List.take_length, List.nil_append, r.same] at r2 ⊢
      rw [← Nat.add_assoc]
      exact r2

theorem erase_op {h : LHeap V} {A : Abs V} {l first last : Nat} (r : Rel h A) (hp : A.pre (.erase l first last)) :
    ∃ h', h.erase first last = some h' ∧ Rel h' (A.spec (.erase l first last)).1 := by
  obtain ⟨⟨xs, hl⟩, hr⟩ := hp
  rw [Abs.at_of hl] at hr
  obtain ⟨r1, hn⟩ := makeList_spec r
  have hlt : l ≠ h.next := by rintro rfl; rw [hn] at hl; cases hl
  have hl1 : (upd A.lists h.next (some [])) l = some xs := by rw [upd_other _ _ hlt]; exact hl
  have ht1 : (upd A.lists h.next (some ([] : List (Nat × V)))) h.next = some [] := by simp
  have hfirst := ring_first (r1.ring ht1)
  have hne : h.next ≠ last := by
    rintro rfl
    rcases hr.2 with q | q
    · exact hlt q.symm
    · have : h.next ∈ ids xs := by
        rw [← before_from first xs]
        simp only [ids, List.map_append, List.mem_append]
        exact Or.inr q
      exact r1.sentNe hl1 ht1 this rfl
  have hpre : Abs.pre { lists := upd A.lists h.next (some []), next := A.next + 1 } (.splice h.next h.next l first last) := by
    refine ⟨⟨_, ht1⟩, ⟨_, hl1⟩, ?_, ?_, fun _ => hne⟩
    · rw [Abs.at_of hl1]; exact hr
    · exact Or.inl rfl
  obtain ⟨h2, e2, r2⟩ := splice_op r1 hpre
  have ht2 : ∃ zs, (Abs.spec { lists := upd A.lists h.next (some []), next := A.next + 1 } (.splice h.next h.next l first last)).1.lists h.next = some zs := by
    simp only [Abs.spec, Abs.set, upd_same]; exact ⟨_, rfl⟩
  obtain ⟨zs, hz⟩ := ht2
  obtain ⟨h3, e3, r3⟩ := dropList_op r2 hz
  refine ⟨h3, ?_, ?_⟩
  · unfold LHeap.erase
    simp only [Option.bind_eq_bind]
    rw [hfirst]
    simp only [Option.bind_some]
    have e2' : h.makeList.splice (headId ([] : List (Nat × V)) h.next) first last = some h2 := e2
    rw [e2']
    exact e3
  · simp only [Abs.spec, Abs.at_of hl]
    have : (Abs.set A l (outside first last xs)).use 1 =
        { (Abs.spec { lists := upd A.lists h.next (some []), next := A.next + 1 } (.splice h.next h.next l first last)).1 with
          lists := upd (Abs.spec { lists := upd A.lists h.next (some []), next := A.next + 1 } (.splice h.next h.next l first last)).1.lists h.next none } := by
      have hat : Abs.at' ({ lists := upd A.lists h.next (some []), next := A.next + 1 } : Abs V) l = xs := Abs.at_of hl1
      simp only [Abs.spec, Abs.set, Abs.use, upd_upd, hat]
      congr 1
      funext k
      by_cases hk : k = h.next
      · subst hk; simp [upd_other _ _ (Ne.symm hlt), hn]
      · by_cases hkl : k = l
        · subst hkl; simp [upd, hk]
        · simp [upd, hk, hkl]
    rw [this]
    exact r3

theorem nextOf_node {h : LHeap V} {A : Abs V} {D} (r : RelD h A D) {l : Nat} {P Q : List (Nat × V)} {x : Nat × V}
    (hl : A.lists l = some (P ++ x :: Q)) : h.nextOf x.1 = some (headId Q l) := by
  have := (ring_split (xs := P ++ [x]) (ys := Q)).1 (by simpa using r.ring hl)
  have h3 := this.2.2.1
  rw [lastId_append (k' := l) (by simp)] at h3
  exact h3

theorem eraseOne_op {h : LHeap V} {A : Abs V} {l : Nat} {P Q : List (Nat × V)} {x : Nat × V} (r : Rel h A)
    (hl : A.lists l = some (P ++ x :: Q)) :
    ∃ h', h.eraseOne l x.1 = some h' ∧ Rel h' ((A.set l (P ++ Q)).use 1) := by
  obtain ⟨o1, o2, o3, o4⟩ := one_node (r.nodup hl) (r.notMem hl)
  obtain ⟨h', e, r'⟩ := erase_op (first := x.1) (last := headId Q l) r ⟨⟨_, hl⟩, by rw [Abs.at_of hl]; exact o3⟩
  refine ⟨h', ?_, ?_⟩
  · unfold LHeap.eraseOne
    rw [if_neg, nextOf_node r hl]
    · exact e
    · rintro e
      exact r.notMem hl (by rw [← e]; simp [ids])
  · simp only [Abs.spec, Abs.at_of hl, o2] at r'
    exact r'

theorem insert_op {h : LHeap V} {A : Abs V} {l pos : Nat} {vs : List V} {fail : Option Nat} (r : Rel h A)
    (hp : A.pre (.insert l pos vs fail)) :
    ∃ h', h.insert pos vs fail = Out.of (A.spec (.insert l pos vs fail)).2 h' ∧ Rel h' (A.spec (.insert l pos vs fail)).1 := by
  obtain ⟨⟨xs, hl⟩, hv, hf⟩ := hp
  rw [Abs.at_of hl] at hv
  obtain ⟨h1, e1, r1⟩ := makeFrom_op (vs := vs) (fail := fail) r hf
  have hnone := (makeList_spec r).2
  have hlt : l ≠ h.next := by rintro rfl; rw [hnone] at hl; cases hl
  simp only [Abs.spec] at e1 r1 ⊢
  rw [Abs.at_of hl]
  by_cases hlt' : Abs.made vs.length fail < vs.length
  · rw [if_pos hlt'] at e1 r1 ⊢
    refine ⟨h1, ?_, r1⟩
    simp only [LHeap.insert, e1, Out.of_true, Out.andThen_exn]
  · rw [if_neg hlt'] at e1 r1 ⊢
    generalize hB : (A.set A.next (number (A.next + 1) vs)).use (1 + vs.length) = B at r1
    have hBt : B.lists h.next = some (number (A.next + 1) vs) := by
      rw [← hB, ← r.same]; simp [Abs.set, Abs.use]
    have hBl : B.lists l = some xs := by
      rw [← hB]; simp only [Abs.set, Abs.use]; rw [r.same, upd_other _ _ hlt]; exact hl
    obtain ⟨h2, e2, r2⟩ := spliceAll_op (l := l) (pos := pos) (o := h.next) r1
      ⟨⟨_, hBl⟩, ⟨_, hBt⟩, hlt, by rw [Abs.at_of hBl]; exact hv⟩
    have hBl' : (B.set h.next []).lists l = some xs := by simp only [Abs.set, upd_other _ _ hlt]; exact hBl
    simp only [Abs.spec, Abs.at_of hBt, Abs.at_of hBl'] at r2
    obtain ⟨h3, e3, r3⟩ := dropList_op (l := h.next) (xs := []) r2 (by simp [Abs.set, upd_other _ _ (Ne.symm hlt)])
    refine ⟨h3, ?_, ?_⟩
    · simp only [LHeap.insert, e1, Out.of_false, Out.andThen_ok, e2, Option.bind_eq_bind, Option.bind_some, e3, ptr]
    · have hf : (A.set l (before pos xs ++ number (A.next + 1) vs ++ fromPos pos xs)).use (1 + vs.length) =
          { ((B.set h.next []).set l (before pos xs ++ number (A.next + 1) vs ++ fromPos pos xs)) with
            lists := upd ((B.set h.next []).set l (before pos xs ++ number (A.next + 1) vs ++ fromPos pos xs)).lists h.next none } := by
        subst hB
        simp only [Abs.set, Abs.use]
        congr 1
        funext k
        by_cases hk : k = h.next
        · subst hk; simp [upd_other _ _ (Ne.symm hlt), hnone]
        · by_cases hkl : k = l
          · subst hkl; simp [upd, hk]
          · simp [upd, hk, hkl, r.same]
      rw [hf]
      exact r3

theorem pushFront_op {h : LHeap V} {A : Abs V} {l : Nat} {v : V} {fail : Bool} (r : Rel h A) (hp : A.pre (.pushFront l v fail)) :
    ∃ h', h.pushFront l v fail = Out.of (A.spec (.pushFront l v fail)).2 h' ∧ Rel h' (A.spec (.pushFront l v fail)).1 := by
  obtain ⟨xs, hl⟩ := hp
  obtain ⟨r1, hnone⟩ := makeList_spec r
  have hlt : l ≠ h.next := by rintro rfl; rw [hnone] at hl; cases hl
  have ht1 : (upd A.lists h.next (some ([] : List (Nat × V)))) h.next = some [] := by simp
  simp only [Abs.spec]
  rw [Abs.at_of hl]
  cases fail with
  | true =>
    obtain ⟨h2, e2, r2⟩ := dropList_op r1 ht1
    refine ⟨h2, ?_, ?_⟩
    · simp [LHeap.pushFront, LHeap.pushBack, e2]
    · simp only [upd_upd, upd_self hnone] at r2
      exact r2
  | false =>
    obtain ⟨h2, e2, r2⟩ := pushNode_spec r1 ht1 v
    generalize hB : ({ lists := upd (upd A.lists h.next (some [])) h.next (some ([] ++ [(A.next + 1, v)])), next := A.next + 1 + 1 } : Abs V) = B at r2
    have hBt : B.lists h.next = some [(A.next + 1, v)] := by rw [← hB]; simp
    have hBl : B.lists l = some xs := by rw [← hB]; simp only [upd_other _ _ hlt]; exact hl
    have hfirst := ring_first (r2.ring hBl)
    obtain ⟨h3, e3, r3⟩ := spliceAll_op (l := l) (pos := headId xs l) (o := h.next) r2
      ⟨⟨_, hBl⟩, ⟨_, hBt⟩, hlt, by rw [Abs.at_of hBl]; exact validRange_all.1⟩
    have hBl' : (B.set h.next []).lists l = some xs := by simp only [Abs.set, upd_other _ _ hlt]; exact hBl
    simp only [Abs.spec, Abs.at_of hBt, Abs.at_of hBl', before_headId, from_headId] at r3
    obtain ⟨h4, e4, r4⟩ := dropList_op (l := h.next) (xs := []) r3 (by simp [Abs.set, upd_other _ _ (Ne.symm hlt)])
    refine ⟨h4, ?_, ?_⟩
    · simp only [LHeap.pushFront, LHeap.pushBack, Bool.false_eq_true, if_false, e2, ptr, Out.of_false]
      rw [hfirst]
      simp only [Option.bind_eq_bind, Option.bind_some, e3, e4]
    · simp only [Bool.false_eq_true, if_false]
      have hf : (A.set l ((A.next + 1, v) :: xs)).use 2 =
          { ((B.set h.next []).set l ([] ++ [(A.next + 1, v)] ++ xs)) with
            lists := upd ((B.set h.next []).set l ([] ++ [(A.next + 1, v)] ++ xs)).lists h.next none } := by
        subst hB
        simp only [Abs.set, Abs.use]
        congr 1
        funext k
        by_cases hk : k = h.next
        · subst hk; simp [upd_other _ _ (Ne.symm hlt), hnone]
        · by_cases hkl : k = l
          · subst hkl; simp [upd, hk]
          · simp [upd, hk, hkl]
      rw [hf]
      exact r4

theorem eraseIfLoop_op (p : V → Bool) : ∀ (Q : List (Nat × V)) {n : Nat} {h : LHeap V} {A : Abs V} {l : Nat} {P : List (Nat × V)} {c : Nat}
    (_ : Rel h A) (_ : A.lists l = some (P ++ Q)) (_ : Q.length < n),
    ∃ h', eraseIfLoop p n h l (headId Q l) c = some (h', c + Q.countP fun x => p x.2) ∧
      Rel h' ((A.set l (P ++ Q.filter fun x => !p x.2)).use (Q.countP fun x => p x.2)) := by
  intro Q
  induction Q with
  | nil =>
    intro n h A l P c r hl hn
    cases n with
    | zero => simp at hn
    | succ n =>
      refine ⟨h, by simp [eraseIfLoop, headId], ?_⟩
      simp only [List.filter_nil, List.countP_nil, Abs.set_self hl]
      exact r
  | cons x Q ih =>
    intro n h A l P c r hl hn
    cases n with
    | zero => simp at hn
    | succ n =>
      have hv : h.valOf x.1 = some (some x.2) := r.vals hl (by simp)
      obtain ⟨pv, nx, hc⟩ := cell_of_val hv
      have hnx : nx = headId Q l := by
        have := nextOf_node r hl
        simp only [LHeap.nextOf, hc, Option.map_some, Option.some.injEq] at this
        exact this
      have hxl : x.1 ≠ l := fun e => r.notMem hl (by rw [← e]; simp [ids])
      show ∃ h', eraseIfLoop p (n + 1) h l x.1 c = _ ∧ _
      rw [eraseIfLoop, if_neg hxl, hc]
      simp only
      by_cases hp : p x.2 = true
      · rw [if_pos hp]
        obtain ⟨h1, e1, r1⟩ := eraseOne_op r hl
        obtain ⟨h2, e2, r2⟩ := ih (n := n) (c := c + 1) (l := l) (P := P) r1 (by simp [Abs.set, Abs.use]) (by simp at hn; omega)
        refine ⟨h2, ?_, ?_⟩
        · simp only [e1, Option.bind_eq_bind, Option.bind_some, hnx, e2]
          rw [List.countP_cons_of_pos (p := fun x : Nat × V => p x.2) hp]
          congr 2
          omega
        · rw [List.countP_cons_of_pos (p := fun x : Nat × V => p x.2) hp, List.filter_cons_of_neg (by simp [hp])]
          simp only [Abs.set, Abs.use, upd_upd] at r2 ⊢
          rw [Nat.add_assoc, Nat.add_comm 1] at r2
          exact r2
      · rw [if_neg hp]
        obtain ⟨h2, e2, r2⟩ := ih (n := n) (c := c) (l := l) (P := P ++ [x]) r (by simpa using hl) (by simp at hn; omega)
        refine ⟨h2, ?_, ?_⟩
        · rw [hnx, e2, List.countP_cons_of_neg (p := fun x : Nat × V => p x.2) hp]
        · rw [List.countP_cons_of_neg (p := fun x : Nat × V => p x.2) hp, List.filter_cons_of_pos (by simp [hp])]
          simpa using r2

theorem eraseIf_op {h : LHeap V} {A : Abs V} {l : Nat} {p : V → Bool} {xs} (r : Rel h A) (hl : A.lists l = some xs) :
    ∃ h', h.eraseIf l p = some (h', xs.countP fun x => p x.2) ∧ Rel h' (A.spec (.eraseIf l p)).1 := by
  obtain ⟨h', e, r'⟩ := eraseIfLoop_op p xs (n := h.next + 1) (P := []) (c := 0) r (by simpa using hl) (Nat.lt_succ_of_le (r.length_le hl))
  refine ⟨h', ?_, ?_⟩
  · unfold LHeap.eraseIf
    rw [ring_first (r.ring hl)]
    simp only [Option.bind_eq_bind, Option.bind_some, e, Nat.zero_add]
  · simp only [Abs.spec, Abs.at_of hl]
    simpa using r'

theorem setVal_op {h : LHeap V} {A : Abs V} {l : Nat} {P Q : List (Nat × V)} {x : Nat × V} (r : Rel h A)
    (hl : A.lists l = some (P ++ x :: Q)) (v : V) :
    ∃ h', h.setVal x.1 v = some h' ∧ Rel h' (A.set l (P ++ (x.1, v) :: Q)) := by
  have hv : h.valOf x.1 = some (some x.2) := r.vals hl (by simp)
  obtain ⟨pv, nx, hc⟩ := cell_of_val hv
  have hi : ids (P ++ (x.1, v) :: Q) = ids (P ++ x :: Q) := by simp [ids]
  have hx : x.1 ∈ ids (P ++ x :: Q) := by simp [ids]
  let h' : LHeap V := { h with cell := upd h.cell x.1 (some ⟨pv, nx, some v⟩) }
  have hn : ∀ y, h'.nextOf y = h.nextOf y := by
    intro y; by_cases hy : y = x.1 <;> simp [h', LHeap.nextOf, upd, hy, hc]
  have hp : ∀ y, h'.prevOf y = h.prevOf y := by
    intro y; by_cases hy : y = x.1 <;> simp [h', LHeap.prevOf, upd, hy, hc]
  have hvo : ∀ y, y ≠ x.1 → h'.valOf y = h.valOf y := by
    intro y hy; simp [h', LHeap.valOf, upd, hy]
  have hvx : h'.valOf x.1 = some (some v) := by simp [h', LHeap.valOf]
  refine ⟨h', by simp [LHeap.setVal, hc, h'], ?_⟩
  have key : ∀ {k zs}, (A.set l (P ++ (x.1, v) :: Q)).lists k = some zs →
      (k = l ∧ zs = P ++ (x.1, v) :: Q) ∨ (k ≠ l ∧ A.lists k = some zs) := by
    intro k zs hk
    by_cases hkl : k = l
    · subst hkl; simp [Abs.set] at hk; exact Or.inl ⟨rfl, hk.symm⟩
    · simp only [Abs.set, upd_other _ _ hkl] at hk; exact Or.inr ⟨hkl, hk⟩
  have keyi : ∀ {k zs}, (A.set l (P ++ (x.1, v) :: Q)).lists k = some zs → ∃ ws, A.lists k = some ws ∧ ids zs = ids ws := by
    intro k zs hk
    rcases key hk with ⟨rfl, rfl⟩ | ⟨_, hk⟩
    · exact ⟨_, hl, hi⟩
    · exact ⟨_, hk, rfl⟩
  have hndx := r.nodup hl
  have he : ids (P ++ x :: Q) = ids P ++ (x.1 :: ids Q) := by simp [ids]
  rw [he] at hndx
  have hnP : x.1 ∉ ids P := fun q => (List.nodup_append.1 hndx).2.2 _ q _ (by simp) rfl
  have hnQ : x.1 ∉ ids Q := (List.nodup_cons.1 (List.nodup_append.1 hndx).2.1).1
  constructor
  case fresh =>
    intro a ha
    have : a ≠ x.1 := by
      rintro rfl
      have := r.fresh _ ha
      rw [hv] at this; cases this
    rw [hvo a this]; exact r.fresh a ha
  case same => exact r.same
  case ring =>
    intro k zs hk
    obtain ⟨ws, hw, e⟩ := keyi hk
    rw [e]
    exact inner_congr (r.ring hw) fun y _ => ⟨hn y, hp y⟩
  case nodup => intro k zs hk; obtain ⟨ws, hw, e⟩ := keyi hk; rw [e]; exact r.nodup hw
  case sent =>
    intro k zs hk
    obtain ⟨ws, hw, e⟩ := keyi hk
    rw [hvo k (Ne.symm (r.sentNe hl hw hx))]
    exact r.sent hw
  case vals =>
    intro k zs i w hk hm
    rcases key hk with ⟨rfl, rfl⟩ | ⟨hkl, hk⟩
    · simp only [List.mem_append, List.mem_cons] at hm
      rcases hm with q | q | q
      · rw [hvo i (fun e => hnP (by rw [← e]; exact mem_ids.2 ⟨w, q⟩))]; exact r.vals hl (by simp [q])
      · injection q with q1 q2; rw [q1, q2]; exact hvx
      · rw [hvo i (fun e => hnQ (by rw [← e]; exact mem_ids.2 ⟨w, q⟩))]; exact r.vals hl (by simp [q])
    · rw [hvo i (fun e => hkl (r.apart hk hl (mem_ids.2 ⟨w, hm⟩) (e ▸ hx)))]
      exact r.vals hk hm
  case apart =>
    intro k k' zs ws i hk hk' hi hi'
    obtain ⟨zs', hz, e⟩ := keyi hk
    obtain ⟨ws', hw, e'⟩ := keyi hk'
    exact r.apart hz hw (e ▸ hi) (e' ▸ hi')
  case dinner => exact List.IsChain.nil
  case dnodup => exact List.nodup_nil
  case dvals => intro i v hi; cases hi
  case dapart => intro k xs i _ _ hd; cases hd
  case sentOf =>
    intro a ha
    have : a ≠ x.1 := by rintro rfl; rw [hvx] at ha; cases ha
    rw [hvo a this] at ha
    obtain ⟨zs, hz⟩ := r.sentOf ha
    by_cases hal : a = l
    · exact ⟨P ++ (x.1, v) :: Q, by rw [hal]; simp [Abs.set]⟩
    · exact ⟨zs, by simp only [Abs.set, upd_other _ _ hal]; exact hz⟩
  case nodeOf =>
    intro a w ha
    by_cases hax : a = x.1
    · rw [hax, hvx] at ha
      injection ha with ha
      injection ha with ha
      exact Or.inl ⟨l, P ++ (x.1, v) :: Q, by simp [Abs.set], by simp [hax, ha]⟩
    · rw [hvo a hax] at ha
      rcases r.nodeOf ha with ⟨k, zs, hk, hm⟩ | q
      · by_cases hkl : k = l
        · subst hkl
          rw [hl] at hk
          injection hk with hk
          rw [← hk] at hm
          simp only [List.mem_append, List.mem_cons] at hm
          refine Or.inl ⟨k, P ++ (x.1, v) :: Q, by simp [Abs.set], ?_⟩
          rcases hm with q | q | q
          · simp [q]
          · exact absurd (by rw [← q]) hax
          · simp [q]
        · exact Or.inl ⟨k, zs, by simp only [Abs.set, upd_other _ _ hkl]; exact hk, hm⟩
      · cases q

theorem copyTruncate_op (left : V) : ∀ (vs : List V) {fail : Option Nat} {h : LHeap V} {A : Abs V} {l : Nat} {P Q : List (Nat × V)}
    (_ : Rel h A) (_ : A.lists l = some (P ++ Q)),
    if Abs.made vs.length fail < min Q.length vs.length then
      ∃ h' r, h.copyTruncate l (headId Q l) left vs fail = .exn (h', r) ∧
        Rel h' (A.set l (P ++ Abs.assignFail left Q vs (Abs.made vs.length fail)))
    else
      ∃ h', h.copyTruncate l (headId Q l) left vs fail =
          .ok (h', headId (Q.drop vs.length) l, vs.drop Q.length, fail.map (· - min Q.length vs.length)) ∧
        Rel h' (A.set l (P ++ (Q.zipWith (fun x v => (x.1, v)) vs ++ Q.drop vs.length))) := by
  intro vs
  induction vs with
  | nil =>
    intro fail h A l P Q r hl
    rw [if_neg (by simp)]
    refine ⟨h, ?_, ?_⟩
    · simp only [LHeap.copyTruncate, List.length_nil, List.drop_zero, List.drop_nil, Nat.min_zero, Nat.sub_zero]
      simp
    · simp only [List.zipWith_nil_right, List.length_nil, List.drop_zero, List.nil_append]
      rw [Abs.set_self hl]
      exact r
  | cons v vs ih =>
    intro fail h A l P Q r hl
    cases Q with
    | nil =>
      rw [if_neg (by simp)]
      refine ⟨h, ?_, ?_⟩
      · simp [LHeap.copyTruncate, headId]
      · simp only [List.zipWith_nil_left, List.drop_nil, List.append_nil]
        rw [Abs.set_self (by simpa using hl)]
        exact r
    | cons x Q =>
      have hxl : x.1 ≠ l := fun e => r.notMem hl (by rw [← e]; simp [ids])
      have hid : headId (x :: Q) l = x.1 := rfl
      rw [hid]
      by_cases hf : fail = some 0
      · subst hf
        rw [if_pos (by simp [Abs.made])]
        obtain ⟨h1, e1, r1⟩ := setVal_op r hl left
        refine ⟨h1, (x.1, v :: vs, some 0), ?_, ?_⟩
        · simp [LHeap.copyTruncate, hxl, e1]
        · simp only [Abs.made, Nat.zero_min, Abs.assignFail]
          exact r1
      · obtain ⟨h1, e1, r1⟩ := setVal_op r hl v
        have hnx := nextOf_node r hl
        have hstep : h.copyTruncate l x.1 left (v :: vs) fail = h1.copyTruncate l (headId Q l) left vs (fail.map (· - 1)) := by
          rw [LHeap.copyTruncate, if_neg hxl, if_neg hf, e1, hnx]
        have := ih (fail := fail.map (· - 1)) (l := l) (P := P ++ [(x.1, v)]) (Q := Q) r1 (by simp [Abs.set])
        rw [hstep, List.length_cons, made_succ _ _ hf, List.length_cons]
        by_cases hlt : Abs.made vs.length (fail.map (· - 1)) < min Q.length vs.length
        · rw [if_pos hlt] at this
          rw [if_pos (by omega)]
          obtain ⟨h2, rr, e2, r2⟩ := this
          refine ⟨h2, rr, e2, ?_⟩
          simp only [Abs.set, upd_upd, List.append_assoc, Abs.assignFail] at r2 ⊢
          exact r2
        · rw [if_neg hlt] at this
          rw [if_neg (by omega)]
          obtain ⟨h2, e2, r2⟩ := this
          refine ⟨h2, ?_, ?_⟩
          · rw [e2]
            simp only [List.drop_succ_cons, Option.map_map]
            congr 3
            refine Prod.ext rfl ?_
            simp only
            congr 1
            funext k
            simp only [Function.comp]
            omega
          · simp only [Abs.set, upd_upd, List.append_assoc, List.zipWith_cons_cons, List.drop_succ_cons] at r2 ⊢
            exact r2

theorem assign_op {h : LHeap V} {A : Abs V} {l : Nat} {vs : List V} {left : V} {fail : Option Nat} {xs} (r : Rel h A) (hl : A.lists l = some xs) :
    ∃ h', h.assign l vs left fail = Out.of (A.assignTo l vs left fail).2 h' ∧ Rel h' (A.assignTo l vs left fail).1 := by
  have hfirst := ring_first (r.ring hl)
  have hct := copyTruncate_op left vs (fail := fail) (P := []) (Q := xs) r (by simpa using hl)
  unfold Abs.assignTo
  simp only [Abs.at_of hl]
  by_cases hlt : Abs.made vs.length fail < min xs.length vs.length
  · rw [if_pos hlt] at hct
    rw [if_pos hlt]
    obtain ⟨h1, rr, e1, r1⟩ := hct
    refine ⟨h1, ?_, by simpa using r1⟩
    simp only [LHeap.assign, hfirst, e1, Out.of_true]
  · rw [if_neg hlt] at hct
    rw [if_neg hlt]
    obtain ⟨h1, e1, r1⟩ := hct
    simp only [List.nil_append] at r1
    generalize hZ : xs.zipWith (fun x v => (x.1, v)) vs = Z at r1
    have hl1 : (A.set l (Z ++ xs.drop vs.length)).lists l = some (Z ++ xs.drop vs.length) := by simp [Abs.set]
    have hno := r1.notMem hl1
    have hno2 : l ∉ ids (xs.drop vs.length) := fun q => hno (by simp only [ids, List.map_append, List.mem_append]; exact Or.inr q)
    have hndz := r1.nodup hl1
    have hez : ids (Z ++ xs.drop vs.length) = ids Z ++ ids (xs.drop vs.length) := by simp [ids]
    rw [hez] at hndz
    have hcut : ∀ {W : List (Nat × V)}, (∀ i, i ∈ ids W → i ∉ ids Z) → l ∉ ids Z →
        before (headId W l) (Z ++ W) = Z ∧ fromPos (headId W l) (Z ++ W) = W := by
      intro W hW hlZ
      cases W with
      | nil => simp only [List.append_nil]; exact ⟨before_of_not_mem hlZ, from_of_not_mem hlZ⟩
      | cons w W =>
        have : w.1 ∉ ids Z := hW w.1 (by simp [ids])
        exact ⟨before_cut this, from_cut this⟩
    obtain ⟨c1, c2⟩ := hcut (W := xs.drop vs.length) (fun i hi hz => (List.nodup_append.1 hndz).2.2 i hz i hi rfl)
      (fun q => hno (by simp only [ids, List.map_append, List.mem_append]; exact Or.inl q))
    obtain ⟨h2, e2, r2⟩ := erase_op (l := l) (first := headId (xs.drop vs.length) l) (last := l) r1
      ⟨⟨_, hl1⟩, by
        rw [Abs.at_of hl1]
        refine ⟨?_, Or.inl rfl⟩
        rcases headId_uses l (xs.drop vs.length) with q | q
        · exact Or.inl q
        · exact Or.inr (by rw [hez]; simp only [List.mem_append]; exact Or.inr q)⟩
    simp only [Abs.spec, Abs.at_of hl1, outside, c1, c2, from_of_not_mem hno2, List.append_nil] at r2
    have hl2 : (((A.set l (Z ++ xs.drop vs.length)).set l Z).use 1).lists l = some Z := by simp [Abs.set, Abs.use]
    obtain ⟨h3, e3, r3⟩ := append_op (vs.drop xs.length) (fail := fail.map (· - min xs.length vs.length)) r2 hl2
    have hmade : Abs.made (vs.drop xs.length).length (fail.map (· - min xs.length vs.length)) = Abs.made vs.length fail - xs.length := by
      have hle := made_le vs.length fail
      cases fail with
      | none => simp [Abs.made]
      | some k =>
        simp only [Abs.made, Option.map_some, List.length_drop] at hlt ⊢
        omega
    refine ⟨h3, ?_, ?_⟩
    · simp only [LHeap.assign, hfirst, e1, e2, e3, hmade]
      congr 1
      rw [decide_eq_decide, List.length_drop]
      have hle := made_le vs.length fail
      omega
    · rw [hmade] at r3
      simp only [Abs.set, Abs.use, upd_upd] at r3 ⊢
      rw [Nat.add_assoc] at r3
      exact r3

/-- One operation. -/
theorem lstep_refines (h : LHeap V) (A : Abs V) (op : LOp V) (r : Rel h A) (hp : A.pre op) :
    ∃ h', lstep h op = Out.of (A.spec op).2 h' ∧ Rel h' (A.spec op).1 := by
  cases op with
  | new =>
    refine ⟨_, rfl, ?_⟩
    have := (makeList_spec r).1
    rw [← r.same] at this
    exact this
  | newFrom vs fail => exact makeFrom_op r hp
  | copyOf src fail =>
    obtain ⟨⟨xs, hs⟩, hf⟩ := hp
    rw [Abs.at_of hs] at hf
    obtain ⟨h', e, r'⟩ := makeFrom_op (vs := xs.map (·.2)) (fail := fail) r (by simp only [Abs.pre, List.length_map]; exact hf)
    refine ⟨h', ?_, ?_⟩
    · simp only [lstep, LHeap.copyOf, forward_spec r hs, e]
      simp only [Abs.spec, Abs.at_of hs]
    · simp only [Abs.spec, Abs.at_of hs] at r' ⊢
      exact r'
  | moveOf src =>
    obtain ⟨xs, hs⟩ := hp
    obtain ⟨r1, hnone⟩ := makeList_spec r
    have hst : src ≠ h.next := by rintro rfl; rw [hnone] at hs; cases hs
    obtain ⟨h2, e2, r2⟩ := swap_spec (l := h.next) (m := src) (xs := []) (ys := xs) r1 (by simp) (by simp only [upd_other _ _ hst]; exact hs)
    refine ⟨h2, by simp only [lstep, LHeap.moveOf, e2, ptr, Abs.spec, Out.of_false], ?_⟩
    simp only [Abs.spec, Abs.at_of hs, Abs.set, Abs.use, r.same]
    simp only [upd_upd, r.same] at r2
    exact r2
  | drop l =>
    obtain ⟨xs, hl⟩ := hp
    obtain ⟨h', e, r'⟩ := dropList_op r hl
    exact ⟨h', by simp only [lstep, e, ptr, Abs.spec, Out.of_false], r'⟩
  | pushBack l v fail =>
    obtain ⟨xs, hl⟩ := hp
    cases fail with
    | true => exact ⟨h, rfl, r⟩
    | false =>
      obtain ⟨h', e, r'⟩ := pushNode_spec r hl v
      refine ⟨h', by simp [lstep, LHeap.pushBack, e, ptr, Abs.spec], ?_⟩
      simp only [Abs.spec, Abs.at_of hl, Bool.false_eq_true, if_false]
      exact r'
  | pushFront l v fail => exact pushFront_op r hp
  | popBack l =>
    obtain ⟨⟨xs, hl⟩, hne⟩ := hp
    rw [Abs.at_of hl] at hne
    obtain ⟨ys, y, rfl⟩ := (List.eq_nil_or_concat xs).resolve_left hne
    obtain ⟨h', e, r', _⟩ := popBack_spec (xs := ys) (x := y) r (by simpa using hl)
    refine ⟨h', by simp only [lstep, e, ptr, Abs.spec, Out.of_false], ?_⟩
    simp only [Abs.spec, Abs.at_of hl]
    simpa [Abs.set] using r'
  | popFront l =>
    obtain ⟨⟨xs, hl⟩, hne⟩ := hp
    rw [Abs.at_of hl] at hne
    cases xs with
    | nil => exact absurd rfl hne
    | cons x xs =>
      obtain ⟨h', e, r'⟩ := eraseOne_op (P := []) r (by simpa using hl)
      have hfirst := ring_first (r.ring hl)
      refine ⟨h', ?_, ?_⟩
      · simp only [lstep, LHeap.popFront, Abs.spec, Out.of_false]
        rw [hfirst]
        have e' : h.eraseOne l (headId (x :: xs) l) = some h' := e
        simp only [Option.bind_eq_bind, Option.bind_some, e', ptr]
      · simp only [Abs.spec, Abs.at_of hl]
        exact r'
  | append l vs fail =>
    obtain ⟨xs, hl⟩ := hp
    obtain ⟨h', e, r'⟩ := append_op vs (fail := fail) r hl
    refine ⟨h', e, ?_⟩
    simp only [Abs.spec, Abs.at_of hl]
    exact r'
  | insert l pos vs fail => exact insert_op r hp
  | erase l first last =>
    obtain ⟨h', e, r'⟩ := erase_op r hp
    exact ⟨h', by simp only [lstep, e, ptr, Abs.spec, Out.of_false], r'⟩
  | eraseIf l p =>
    obtain ⟨xs, hl⟩ := hp
    obtain ⟨h', e, r'⟩ := eraseIf_op (p := p) r hl
    exact ⟨h', by simp only [lstep, e, ptr, Abs.spec, Out.of_false, Option.map_some], r'⟩
  | clear l =>
    obtain ⟨xs, hl⟩ := hp
    obtain ⟨h', e, r'⟩ := clear_spec r hl
    exact ⟨h', by simp only [lstep, e, ptr, Abs.spec, Out.of_false], r'⟩
  | splice l pos o first last =>
    obtain ⟨h', e, r'⟩ := splice_op r hp
    exact ⟨h', by simp only [lstep, e, ptr, Abs.spec, Out.of_false], r'⟩
  | spliceAll l pos o =>
    obtain ⟨h', e, r'⟩ := spliceAll_op r hp
    exact ⟨h', by simp only [lstep, e, ptr, Abs.spec, Out.of_false], r'⟩
  | spliceOne l pos o it =>
    obtain ⟨h', e, r'⟩ := spliceOne_op r hp
    exact ⟨h', by simp only [lstep, e, ptr, Abs.spec, Out.of_false], r'⟩
  | swap a b =>
    obtain ⟨⟨xs, ha⟩, ⟨ys, hb⟩⟩ := hp
    obtain ⟨h', e, r'⟩ := swap_spec r ha hb
    refine ⟨h', by simp only [lstep, e, ptr, Abs.spec, Out.of_false], ?_⟩
    simp only [Abs.spec, Abs.at_of ha, Abs.at_of hb]
    exact r'
  | moveAssign a b =>
    obtain ⟨⟨xs, ha⟩, ⟨ys, hb⟩⟩ := hp
    obtain ⟨h', e, r'⟩ := swap_spec r ha hb
    refine ⟨h', by simp only [lstep, e, ptr, Abs.spec, Out.of_false], ?_⟩
    simp only [Abs.spec, Abs.at_of ha, Abs.at_of hb]
    exact r'
  | assign l vs left fail =>
    obtain ⟨xs, hl⟩ := hp
    exact assign_op r hl
  | copyAssign l src left fail =>
    obtain ⟨⟨xs, hl⟩, ⟨ys, hs⟩⟩ := hp
    simp only [lstep, LHeap.copyAssign, Abs.spec]
    by_cases hls : l = src
    · rw [if_pos hls, if_pos hls]; exact ⟨h, rfl, r⟩
    · rw [if_neg hls, if_neg hls, forward_spec r hs, Abs.at_of hs]
      exact assign_op r hl

/-! ## Histories -/

/-- Nothing exists yet. -/
def LHeap.start (V : Type) : LHeap V := ⟨fun _ => none, 0⟩
/-- No lists. -/
def Abs.start (V : Type) : Abs V := ⟨fun _ => none, 0⟩

theorem rel_start (V : Type) : Rel (LHeap.start V) (Abs.start V) where
  fresh a _ := rfl
  same := rfl
  ring hk := by cases hk
  nodup hk := by cases hk
  sent hk := by cases hk
  vals hk := by cases hk
  apart hk := by cases hk
  dinner := List.IsChain.nil
  dnodup := List.nodup_nil
  dvals hi := by cases hi
  dapart hk := by cases hk
  sentOf ha := by cases ha
  nodeOf ha := by cases ha

/-- What a user observes of the lists, and that nothing is lost or shared: traversal in both
directions gives the sequence, positions are distinct, every allocated node is in exactly one
list, every sentinel is the one of an existing list. -/
structure LShows (h : LHeap V) (A : Abs V) : Prop where
  forward : ∀ {l xs}, A.lists l = some xs → h.forward l = some (xs.map (·.2))
  backward : ∀ {l xs}, A.lists l = some xs → h.backward l = some ((xs.map (·.2)).reverse)
  chain : ∀ {l xs}, A.lists l = some xs → Inner h (l :: (ids xs ++ [l]))
  distinct : ∀ {l xs}, A.lists l = some xs → (l :: ids xs).Nodup
  notShared : ∀ {k k' xs ys i}, A.lists k = some xs → A.lists k' = some ys → i ∈ ids xs → i ∈ ids ys → k = k'
  notLost : ∀ {a v}, h.valOf a = some (some v) ↔ ∃ l xs, A.lists l = some xs ∧ (a, v) ∈ xs
  sentinels : ∀ {a}, h.valOf a = some none ↔ A.Has a

theorem RelD.shows {h : LHeap V} {A : Abs V} (r : Rel h A) : LShows h A where
  forward hl := forward_spec r hl
  backward hl := backward_spec r hl
  chain hl := r.ring hl
  distinct hl := r.consNodup hl
  notShared := r.apart
  notLost := ⟨fun ha => (r.nodeOf ha).resolve_right (by simp), fun ⟨_, _, hl, hm⟩ => r.vals hl hm⟩
  sentinels := ⟨r.sentOf, fun ⟨_, hx⟩ => r.sent hx⟩

/-- C31. Any history of operations on any number of lists, with any pattern of exceptions,
runs without undefined behaviour and leaves every list a circular chain in both directions
that holds the sequence the specification says; positions keep referring to their element
through splices, swaps and moves; nodes are neither lost nor shared.

Missing from the full claim: a range constructed or inserted may throw only before its first
element is made (`C31_failed_copy_violated`), and within one list a range cannot be spliced
to the position where it ends (`C31_splice_in_place_violated`). -/
theorem C31_history_partial (ops : List (LOp V)) (hp : PreHist Abs.spec Abs.pre (Abs.start V) ops) :
    ∃ h, runHist lstep (LHeap.start V) ops = some (h, (specHist Abs.spec (Abs.start V) ops).2) ∧
      LShows h (specHist Abs.spec (Abs.start V) ops).1 := by
  obtain ⟨h, e, r⟩ := runHist_refines (R := Rel) lstep_refines ops (LHeap.start V) (Abs.start V) (rel_start V) hp
  exact ⟨h, e, r.shows⟩

/-- The part of C46 about linked lists: `erase_if` removes exactly the elements that satisfy
the predicate, keeps the others in order and at their positions, and returns how many it
removed. -/
theorem C46_list_erase_if {h : LHeap V} {A : Abs V} {l : Nat} {p : V → Bool} {xs} (r : Rel h A) (hl : A.lists l = some xs) :
    ∃ h', h.eraseIf l p = some (h', xs.length - (xs.filter fun x => !p x.2).length) ∧
      LShows h' ((A.set l (xs.filter fun x => !p x.2)).use (xs.countP fun x => p x.2)) := by
  obtain ⟨h', e, r'⟩ := eraseIf_op (p := p) r hl
  refine ⟨h', ?_, ?_⟩
  · rw [e]
    congr 2
    have h1 := List.length_eq_countP_add_countP (fun x : Nat × V => p x.2) (l := xs)
    rw [List.countP_eq_length_filter (p := fun x : Nat × V => decide ¬(p x.2 = true))] at h1
    have h2 : (xs.filter fun x => decide ¬(p x.2 = true)) = xs.filter fun x => !p x.2 := by
      congr 1; funext x; cases p x.2 <;> rfl
    rw [h2] at h1
    omega
  · simp only [Abs.spec, Abs.at_of hl] at r'
    exact r'.shows

/-- A concrete history: two lists, one built with `push_back`, `push_front` and an insertion
in the middle, a splice between them, a swap, an erasure. -/
def demo : List (LOp Nat) :=
  [.new, .new, .pushBack 0 10 false, .pushBack 0 20 false, .pushFront 0 5 false, .insert 0 3 [11, 12] none,
   .pushBack 1 7 true, .pushBack 1 7 false, .splice 1 9 0 5 3, .swap 0 1, .erase 0 8 9, .popBack 0, .moveOf 0, .drop 1]

example : PreHist Abs.spec Abs.pre (Abs.start Nat) demo := by
  refine ⟨?_, ?_, ?_, ?_, ?_, ?_, ?_, ?_, ?_, ?_, ?_, ?_, ?_, ?_, trivial⟩ <;>
    simp [Abs.pre, Abs.Has, Abs.spec, Abs.start, Abs.set, Abs.use, Abs.at', Abs.made, upd, ValidPos, ValidRange,
      before, fromPos, within, outside, ids, number, List.takeWhile, List.dropWhile]

example : (runHist lstep (LHeap.start Nat) demo).map (fun p => (p.2, p.1.forward 11, p.1.backward 11, p.1.forward 0)) =
    some ([false, false, false, false, false, false, true, false, false, false, false, false, false, false],
      some [5, 10, 11], some [11, 10, 5], some []) := by rfl

/-- Splicing a range to the place where it already is, before the element that follows it (a
call that should change nothing), is undefined behaviour: the assertion in `link_range` fails.
The list is `[10, 20]`, the range is its first element, the position its second. -/
theorem C31_splice_in_place_violated :
    (runHist lstep (LHeap.start Nat) [.new, .pushBack 0 10 false, .pushBack 0 20 false]).isSome = true ∧
      runHist lstep (LHeap.start Nat) [.new, .pushBack 0 10 false, .pushBack 0 20 false, .splice 0 2 0 1 2] = none :=
  ⟨rfl, rfl⟩

/-- If copying the second element throws, the node made for the first is never freed: the
history ends with all lists destroyed and a node that belongs to no list. -/
theorem C31_failed_copy_violated :
    ∃ h, runHist lstep (LHeap.start Nat) [.newFrom [10, 20] (some 1)] = some (h, [true]) ∧
      h.valOf 1 = some (some 10) ∧ ∀ a, h.valOf a ≠ some none := by
  refine ⟨_, rfl, rfl, fun a => ?_⟩
  match a with
  | 0 => exact (by decide : (none : Option (Option Nat)) ≠ some none)
  | 1 => exact (by decide : (some (some 10) : Option (Option Nat)) ≠ some none)
  | n + 2 => exact (by decide : (none : Option (Option Nat)) ≠ some none)

/-- The iterator that `insert` returns refers to the element behind the inserted ones: here
to 20, not to the first inserted element 11. (`insert.cpp` 113 returns `position`.) -/
example : (runHist lstep (LHeap.start Nat) [.new, .pushBack 0 10 false, .pushBack 0 20 false, .insert 0 2 [11, 12] none]).map
    (fun p => (p.1.forward 0, p.1.valOf 2)) = some (some [10, 11, 12, 20], some (some 20)) := by rfl

end Verif.Lists
