import Verif.Lists.SizedList

/-!
# Lists that know their size: proofs (property C58)
-/

namespace Verif.Lists

variable {V : Type}

open SHeap

theorem SRel.stale {s : SHeap V} {A : Abs V} {st st' : Nat → Bool} (r : SRel s A st)
    (h : ∀ l xs, A.lists l = some xs → st' l = false → st l = false) : SRel s A st' :=
  ⟨r.rel, fun hl hs => r.size hl (h _ _ hl hs)⟩

theorem SRel.fresh {s : SHeap V} {A : Abs V} {st : Nat → Bool} (r : SRel s A st) : A.lists s.h.next = none := (makeList_spec r.rel).2

theorem SRel.ne_fresh {s : SHeap V} {A : Abs V} {st : Nat → Bool} (r : SRel s A st) {l xs} (hl : A.lists l = some xs) : l ≠ s.h.next := by
  rintro rfl; rw [r.fresh] at hl; cases hl

theorem makeList_sz {s : SHeap V} {A : Abs V} {st : Nat → Bool} (r : SRel s A st) :
    SRel s.makeList { lists := upd A.lists s.h.next (some []), next := A.next + 1 } (upd st s.h.next false) := by
  refine ⟨(makeList_spec r.rel).1, ?_⟩
  intro l xs hl hs
  simp only [SHeap.makeList] at hl hs ⊢
  by_cases h : l = s.h.next
  · subst h; simp only [upd_same, Option.some.injEq] at hl ⊢; simp [← hl]
  · rw [upd_other _ _ h] at hl hs ⊢; exact r.size hl hs

theorem pushBack_sz {s : SHeap V} {A : Abs V} {st : Nat → Bool} (r : SRel s A st) {l xs} (hl : A.lists l = some xs) (v : V) :
    ∃ s', s.pushBack l v false = .ok s' ∧ SRel s' ((A.set l (xs ++ [(A.next, v)])).use 1) st := by
  obtain ⟨h', e, r'⟩ := pushNode_spec r.rel hl v
  refine ⟨⟨h', upd s.size l (s.size l + 1)⟩, by simp [SHeap.pushBack, LHeap.pushBack, e, ptr], r', ?_⟩
  intro k ys hk hs
  simp only [Abs.set, Abs.use] at hk
  by_cases h : k = l
  · subst h; simp only [upd_same, Option.some.injEq] at hk ⊢; rw [r.size hl hs, ← hk]; simp
  · rw [upd_other _ _ h] at hk; simp only [upd_other _ _ h]; exact r.size hk hs

theorem popBack_sz {s : SHeap V} {A : Abs V} {st : Nat → Bool} (r : SRel s A st) {l xs x} (hl : A.lists l = some (xs ++ [x])) :
    ∃ s', s.popBack l = some s' ∧ SRel s' (A.set l xs) st ∧ s'.h.next = s.h.next := by
  obtain ⟨h', e, r', hn⟩ := popBack_spec r.rel hl
  refine ⟨⟨h', upd s.size l (s.size l - 1)⟩, by simp [SHeap.popBack, e], ⟨r', ?_⟩, hn⟩
  intro k ys hk hs
  simp only [Abs.set] at hk
  by_cases h : k = l
  · subst h; simp only [upd_same, Option.some.injEq] at hk ⊢; rw [r.size hl hs, ← hk]; simp
  · rw [upd_other _ _ h] at hk; simp only [upd_other _ _ h]; exact r.size hk hs

theorem dropList_sz {s : SHeap V} {A : Abs V} {st : Nat → Bool} (r : SRel s A st) {l xs} (hl : A.lists l = some xs) :
    ∃ s', s.dropList l = some s' ∧ SRel s' { A with lists := upd A.lists l none } st := by
  obtain ⟨h', e, r'⟩ := dropList_op r.rel hl
  refine ⟨⟨h', s.size⟩, by simp [SHeap.dropList, e], r', ?_⟩
  intro k ys hk hs
  by_cases h : k = l
  · subst h; simp at hk
  · simp only [upd_other _ _ h] at hk; exact r.size hk hs

theorem clearLoop_sz : ∀ (n : Nat) {s : SHeap V} {A : Abs V} {st : Nat → Bool} {l : Nat} {xs : List (Nat × V)} (_ : SRel s A st)
    (_ : A.lists l = some xs) (_ : xs.length < n),
    ∃ s', SHeap.clearLoop n s l = some s' ∧ SRel s' (A.set l []) st := by
  intro n
  induction n with
  | zero => intro s A st l xs r hl hn; omega
  | succ n ih =>
    intro s A st l xs r hl hn
    unfold SHeap.clearLoop
    rw [ring_first (r.rel.ring hl)]
    simp only [Option.bind_eq_bind, Option.bind_some]
    rcases List.eq_nil_or_concat xs with rfl | ⟨ys, y, rfl⟩
    · refine ⟨s, by simp [headId], ?_⟩
      rw [Abs.set_self hl]; exact r
    · have hl' : A.lists l = some (ys ++ [y]) := by simpa using hl
      have hne : headId (ys.concat y) l ≠ l := r.rel.sentNe hl hl (headId_mem (by simp))
      rw [if_neg hne]
      obtain ⟨s1, e1, r1, _⟩ := popBack_sz r hl'
      rw [e1]
      simp only [Option.bind_some]
      obtain ⟨s2, e2, r2⟩ := ih (l := l) (xs := ys) r1 (by simp [Abs.set]) (by simp at hn; omega)
      refine ⟨s2, e2, ?_⟩
      simpa only [Abs.set, upd_upd] using r2

theorem clear_sz {s : SHeap V} {A : Abs V} {st : Nat → Bool} {l xs} (r : SRel s A st) (hl : A.lists l = some xs) :
    ∃ s', s.clear l = some s' ∧ SRel s' (A.set l []) st :=
  clearLoop_sz _ r hl (Nat.lt_succ_of_le (r.rel.length_le hl))

theorem append_sz : ∀ (vs : List V) {fail : Option Nat} {s : SHeap V} {A : Abs V} {st : Nat → Bool} {l : Nat} {xs} (_ : SRel s A st) (_ : A.lists l = some xs),
    ∃ s', s.append l vs fail = Out.of (decide (Abs.made vs.length fail < vs.length)) s' ∧
      SRel s' ((A.set l (xs ++ number A.next (vs.take (Abs.made vs.length fail)))).use (Abs.made vs.length fail)) st := by
  intro vs
  induction vs with
  | nil =>
    intro fail s A st l xs r hl
    have hm : Abs.made 0 fail = 0 := by cases fail <;> simp [Abs.made]
    refine ⟨s, ?_, ?_⟩
    · simp [SHeap.append, hm]
    · simp [hm, number, Abs.set_self hl, Abs.use]
      exact r
  | cons v vs ih =>
    intro fail s A st l xs r hl
    by_cases hf : fail = some 0
    · subst hf
      refine ⟨s, by simp [SHeap.append, SHeap.pushBack, LHeap.pushBack, Abs.made], ?_⟩
      simp [Abs.made, number, Abs.set_self hl, Abs.use]
      exact r
    · obtain ⟨s1, e1, r1⟩ := pushBack_sz r hl v
      obtain ⟨s2, e2, r2⟩ := ih (fail := fail.map (· - 1)) (l := l) r1 (xs := xs ++ [(A.next, v)]) (by simp [Abs.set, Abs.use])
      have hb : (fail == some 0) = false := by
        cases fail with
        | none => rfl
        | some k => simp at hf ⊢; exact hf
      refine ⟨s2, ?_, ?_⟩
      · rw [SHeap.append, hb]
        simp only [e1, Out.andThen_ok, e2]
        congr 2
        rw [List.length_cons, made_succ _ _ hf]
        simp
      · rw [List.length_cons, made_succ _ _ hf]
        simp only [Abs.set, Abs.use, upd_upd, List.append_assoc] at r2 ⊢
        rw [List.take_succ_cons, number]
        have : A.next + (Abs.made vs.length (fail.map (· - 1)) + 1) = A.next + 1 + Abs.made vs.length (fail.map (· - 1)) := by omega
        rw [this]
        exact r2

theorem makeFrom_sz {s : SHeap V} {A : Abs V} {st : Nat → Bool} {vs : List V} {fail : Option Nat} (r : SRel s A st) :
    ∃ s', s.makeFrom vs fail = Out.of (SAbs.elems A (.base (.newFrom vs fail))).2 s' ∧
      SRel s' (SAbs.elems A (.base (.newFrom vs fail))).1 (upd st s.h.next false) := by
  have r1 := makeList_sz r
  obtain ⟨s2, e2, r2⟩ := append_sz vs (fail := fail) (l := s.h.next) (xs := []) r1 (by simp)
  have hle := made_le vs.length fail
  simp only [SAbs.elems]
  by_cases hlt : Abs.made vs.length fail < vs.length
  · rw [if_pos hlt]
    simp only [hlt, decide_true, Out.of_true] at e2
    obtain ⟨s3, e3, r3⟩ := dropList_sz (l := s.h.next) (xs := [] ++ number (A.next + 1) (vs.take (Abs.made vs.length fail))) r2
      (by simp [Abs.set, Abs.use])
    refine ⟨s3, ?_, ?_⟩
    · simp only [SHeap.makeFrom]
      rw [e2]
      simp only [e3, Out.of_true]
    · simp only [Abs.set, Abs.use, upd_upd, upd_self r.fresh] at r3 ⊢
      rw [← Nat.add_assoc]
      exact r3
  · rw [if_neg hlt]
    have h0 : Abs.made vs.length fail = vs.length := by omega
    rw [h0] at e2 r2
    simp only [Nat.lt_irrefl, decide_false, Out.of_false] at e2
    refine ⟨s2, ?_, ?_⟩
    · simp only [SHeap.makeFrom, e2, Abs.spec, if_neg hlt, Out.of_false]
    · simp only [Abs.spec, if_neg hlt]
      simp only [Abs.set, Abs.use, upd_upd, List.take_length, List.nil_append, r.rel.same] at r2 ⊢
      rw [← Nat.add_assoc]
      exact r2

/-! ## Splicing -/

theorem distanceLoop_eq {h : LHeap V} {A : Abs V} {l : Nat} {P R : List (Nat × V)} (r : Rel h A) :
    ∀ (M : List (Nat × V)) (P : List (Nat × V)) (n d : Nat), A.lists l = some (P ++ (M ++ R)) → M.length < n →
      SHeap.distanceLoop n h (headId (M ++ R) l) (headId R l) d = some (d + M.length) := by
  intro M
  induction M with
  | nil =>
    intro P n d hl hn
    cases n with
    | zero => simp at hn
    | succ n => simp [SHeap.distanceLoop]
  | cons x M ih =>
    intro P n d hl hn
    cases n with
    | zero => simp at hn
    | succ n =>
      have hne : headId (x :: M ++ R) l ≠ headId R l := by
        show x.1 ≠ headId R l
        intro e
        have hnd := r.consNodup hl
        have he : l :: ids (P ++ (x :: M ++ R)) = l :: (ids P ++ (x.1 :: (ids M ++ ids R))) := by simp [ids]
        rw [he] at hnd
        have h2 := (List.nodup_cons.1 hnd)
        have h3 := (List.nodup_cons.1 (List.nodup_append.1 h2.2).2.1).1
        rcases headId_uses l R with q | q
        · rw [q] at e; exact h2.1 (by rw [← e]; simp)
        · exact h3 (by rw [e]; exact List.mem_append.2 (Or.inr q))
      have hnx : h.nextOf x.1 = some (headId (M ++ R) l) := nextOf_node r (P := P) (by simpa using hl)
      rw [SHeap.distanceLoop, if_neg hne]
      show ((h.nextOf x.1).bind fun nx => _) = _
      rw [hnx, Option.bind_some, ih (P ++ [x]) n (d + 1) (by simpa using hl) (by simp at hn; omega)]
      simp only [List.length_cons, Option.some.injEq]
      omega

/-- `distance` counts the elements of a range. -/
theorem distance_eq {s : SHeap V} {A : Abs V} {o : Nat} {xs : List (Nat × V)} {first last : Nat} (r : Rel s.h A) (ho : A.lists o = some xs)
    (hr : ValidRange o xs first last) : s.distance first last = some (within first last xs).length := by
  have hno := r.notMem ho
  have hsub : ∀ i, i ∈ ids (fromPos first xs) → i ∈ ids xs := by
    intro i hi
    rw [← before_from first xs]
    simp only [ids, List.map_append, List.mem_append]
    exact Or.inr hi
  have h1 : headId (fromPos first xs) o = first := head_from hr.1 hno
  have h2 : headId (fromPos last (fromPos first xs)) o = last := head_from hr.2 (fun q => hno (hsub _ q))
  have hsplit : fromPos first xs = within first last xs ++ fromPos last (fromPos first xs) := (before_from last _).symm
  have hlen : (within first last xs).length < s.h.next + 1 := by
    have := r.length_le ho
    have e := congrArg List.length (range_split first last xs)
    simp only [List.length_append] at e
    omega
  have := distanceLoop_eq (P := []) (R := fromPos last (fromPos first xs)) r (within first last xs) (before first xs) (s.h.next + 1) 0
    (by rw [← range_split]; exact ho) hlen
  rw [← hsplit, h1, h2] at this
  simpa [SHeap.distance] using this

/-- The lists after a splice. -/
theorem splice_lengths {A : Abs V} {l pos o first last : Nat} {xs ys : List (Nat × V)} (ho : A.lists o = some xs) (hl : A.lists l = some ys)
    {k zs} (hk : (A.spec (.splice l pos o first last)).1.lists k = some zs) :
    (l = o → k = l → zs.length = xs.length) ∧
    (l ≠ o → k = l → zs.length = ys.length + (within first last xs).length) ∧
    (l ≠ o → k = o → zs.length + (within first last xs).length = xs.length) ∧
    (k ≠ l → k ≠ o → A.lists k = some zs) := by
  have e := congrArg List.length (range_split first last xs)
  simp only [List.length_append] at e
  have hcut : ∀ ws : List (Nat × V), (before pos ws).length + (fromPos pos ws).length = ws.length := by
    intro ws; rw [← List.length_append, before_from]
  simp only [Abs.spec, Abs.at_of ho, Abs.set] at hk
  refine ⟨?_, ?_, ?_, ?_⟩
  · rintro rfl rfl
    simp only [upd_same, Option.some.injEq, Abs.at', Option.getD_some] at hk
    rw [← hk]
    have := hcut (outside first last xs)
    simp only [List.length_append, outside] at this ⊢
    omega
  · rintro hne rfl
    simp only [upd_same, Option.some.injEq, Abs.at', upd_other _ _ hne, hl, Option.getD_some] at hk
    rw [← hk]
    have := hcut ys
    simp only [List.length_append]
    omega
  · rintro hne rfl
    simp only [upd_other _ _ (Ne.symm hne), upd_same, Option.some.injEq] at hk
    rw [← hk]
    simp only [outside, List.length_append]
    omega
  · intro h1 h2
    rw [upd_other _ _ h1, upd_other _ _ h2] at hk
    exact hk

theorem splice_sz {s : SHeap V} {A : Abs V} {st : Nat → Bool} {l pos o first last : Nat} (r : SRel s A st) (hp : A.pre (.splice l pos o first last)) :
    ∃ s', s.splice l pos o first last = some s' ∧ SRel s' (A.spec (.splice l pos o first last)).1 st := by
  obtain ⟨h', e, r'⟩ := splice_op r.rel hp
  obtain ⟨⟨ys, hl⟩, ⟨xs, ho⟩, hr, _, _⟩ := hp
  rw [Abs.at_of ho] at hr
  by_cases hlo : o = l
  · subst hlo
    refine ⟨⟨h', s.size⟩, by simp [SHeap.splice, e], r', ?_⟩
    intro k zs hk hs
    obtain ⟨a1, _, _, a4⟩ := splice_lengths ho hl hk
    by_cases h : k = o
    · subst h; rw [r.size ho hs, a1 rfl rfl]
    · exact r.size (a4 h h) hs
  · have hlo' : l ≠ o := Ne.symm hlo
    refine ⟨⟨h', upd (upd s.size o (s.size o - ↑(within first last xs).length)) l
            (upd s.size o (s.size o - ↑(within first last xs).length) l + ↑(within first last xs).length)⟩, by simp only [SHeap.splice, ne_eq, hlo, not_false_eq_true, if_true, distance_eq r.rel ho hr, Option.bind_eq_bind, Option.bind_some, e], r', ?_⟩
    intro k zs hk hs
    obtain ⟨_, a2, a3, a4⟩ := splice_lengths ho hl hk
    by_cases h : k = l
    · subst h
      simp only [upd_same, upd_other _ _ hlo']
      rw [r.size hl hs, a2 hlo' rfl]; push_cast; rfl
    · by_cases h2 : k = o
      · subst h2
        simp only [upd_other _ _ h, upd_same]
        rw [r.size ho hs]; have := a3 hlo' rfl; omega
      · simp only [upd_other _ _ h, upd_other _ _ h2]
        exact r.size (a4 h h2) hs

theorem spliceOne_sz {s : SHeap V} {A : Abs V} {st : Nat → Bool} {l pos o it : Nat} (r : SRel s A st) (hp : A.pre (.spliceOne l pos o it)) :
    ∃ s', s.spliceOne l pos o it = some s' ∧ SRel s' (A.spec (.spliceOne l pos o it)).1 st := by
  obtain ⟨h', e, r'⟩ := spliceOne_op r.rel hp
  obtain ⟨⟨ys, hl⟩, ⟨xs, ho⟩, hi, _, _⟩ := hp
  rw [Abs.at_of ho] at hi
  have hone : (xs.filter (·.1 = it)).length = 1 := by
    obtain ⟨P, v, Q, rfl, hP⟩ := cut_of_mem hi
    have hnd := r.rel.nodup ho
    have he : ids (P ++ (it, v) :: Q) = ids P ++ (it :: ids Q) := by simp [ids]
    rw [he] at hnd
    have hQ : it ∉ ids Q := (List.nodup_cons.1 (List.nodup_append.1 hnd).2.1).1
    have hPe : P.filter (·.1 = it) = [] := List.filter_eq_nil_iff.2 fun x hx => by
      simp only [decide_eq_true_eq]; rintro rfl; exact hP (by simp only [ids, List.mem_map]; exact ⟨x, hx, rfl⟩)
    have hQe : Q.filter (·.1 = it) = [] := List.filter_eq_nil_iff.2 fun x hx => by
      simp only [decide_eq_true_eq]; rintro rfl; exact hQ (by simp only [ids, List.mem_map]; exact ⟨x, hx, rfl⟩)
    rw [List.filter_append, hPe, List.filter_cons_of_pos (by simp), hQe]; rfl
  have hsum : (xs.filter (·.1 = it)).length + (xs.filter (·.1 ≠ it)).length = xs.length := by
    have := List.length_eq_length_filter_add (fun x : Nat × V => decide (x.1 = it)) (l := xs)
    rw [this]
    congr 2
    apply List.filter_congr
    intro x _
    simp
  have hcut : ∀ ws : List (Nat × V), (before pos ws).length + (fromPos pos ws).length = ws.length := by
    intro ws; rw [← List.length_append, before_from]
  refine ⟨⟨h', upd (upd s.size o (s.size o - 1)) l (upd s.size o (s.size o - 1) l + 1)⟩, by simp only [SHeap.spliceOne, e, Option.bind_eq_bind, Option.bind_some], r', ?_⟩
  intro k zs hk hs
  simp only [Abs.spec, Abs.at_of ho, Abs.set] at hk
  by_cases h : k = l
  · subst h
    simp only [upd_same, Option.some.injEq] at hk ⊢
    rw [← hk]
    simp only [List.length_append]
    by_cases hko : k = o
    · subst hko
      have := hcut (xs.filter (·.1 ≠ it))
      simp only [Abs.at', upd_same, Option.getD_some]
      rw [r.size ho hs]
      omega
    · have := hcut ys
      simp only [Abs.at', upd_other _ _ hko, hl, Option.getD_some]
      rw [r.size hl hs]
      omega
  · rw [upd_other _ _ h] at hk
    simp only [upd_other _ _ h]
    by_cases h2 : k = o
    · subst h2
      simp only [upd_same, Option.some.injEq] at hk ⊢
      rw [r.size ho hs, ← hk]
      omega
    · rw [upd_other _ _ h2] at hk ⊢
      exact r.size hk hs

theorem spliceAll_sz {s : SHeap V} {A : Abs V} {st : Nat → Bool} {l pos o : Nat} (r : SRel s A st) (hp : A.pre (.spliceAll l pos o)) :
    ∃ s', s.spliceAll l pos o = some s' ∧ SRel s' (A.spec (.spliceAll l pos o)).1 (upd (upd st l (st l || st o)) o false) := by
  obtain ⟨h', e, r'⟩ := spliceAll_op r.rel hp
  obtain ⟨⟨ys, hl⟩, ⟨xs, ho⟩, hlo, _⟩ := hp
  have hcut : ∀ ws : List (Nat × V), (before pos ws).length + (fromPos pos ws).length = ws.length := by
    intro ws; rw [← List.length_append, before_from]
  refine ⟨⟨h', upd (upd s.size o 0) l (upd s.size o 0 l + s.size o)⟩, by simp only [SHeap.spliceAll, e, Option.bind_eq_bind, Option.bind_some], r', ?_⟩
  intro k zs hk hs
  simp only [Abs.spec, Abs.at_of ho, Abs.set] at hk
  by_cases h : k = l
  · subst h
    simp only [upd_other _ _ hlo, upd_same, Bool.or_eq_false_iff] at hs
    simp only [upd_same, Option.some.injEq, Abs.at', upd_other _ _ hlo, hl, Option.getD_some] at hk ⊢
    rw [← hk, r.size hl hs.1, r.size ho hs.2]
    have := hcut ys
    simp only [List.length_append]
    omega
  · rw [upd_other _ _ h] at hk
    simp only [upd_other _ _ h]
    by_cases h2 : k = o
    · subst h2
      simp only [upd_same, Option.some.injEq] at hk ⊢
      rw [← hk]; rfl
    · rw [upd_other _ _ h2] at hk hs ⊢
      rw [upd_other _ _ h] at hs
      exact r.size hk hs

/-! ## Functions that use a temporary list -/

theorem SRel.dropMark {s : SHeap V} {A : Abs V} {st : Nat → Bool} {t : Nat} {b : Bool} (r : SRel s A (upd st t b)) (h : A.lists t = none) : SRel s A st :=
  r.stale fun l xs hl hs => by
    have : l ≠ t := by rintro rfl; rw [h] at hl; cases hl
    rw [upd_other _ _ this]; exact hs

theorem erase_sz {s : SHeap V} {A : Abs V} {st : Nat → Bool} {l first last : Nat} (r : SRel s A st) (hp : A.pre (.erase l first last)) :
    ∃ s', s.erase l first last = some s' ∧ SRel s' (A.spec (.erase l first last)).1 st := by
  obtain ⟨⟨xs, hl⟩, hr⟩ := hp
  rw [Abs.at_of hl] at hr
  have r1 := makeList_sz r
  have hn := r.fresh
  have hlt := r.ne_fresh hl
  have hl1 : (upd A.lists s.h.next (some [])) l = some xs := by rw [upd_other _ _ hlt]; exact hl
  have ht1 : (upd A.lists s.h.next (some ([] : List (Nat × V)))) s.h.next = some [] := by simp
  have hfirst := ring_first (r1.rel.ring ht1)
  have hne : s.h.next ≠ last := by
    rintro rfl
    rcases hr.2 with q | q
    · exact hlt q.symm
    · have : s.h.next ∈ ids xs := by
        rw [← before_from first xs]
        simp only [ids, List.map_append, List.mem_append]
        exact Or.inr q
      exact r1.rel.sentNe hl1 ht1 this rfl
  have hpre : Abs.pre { lists := upd A.lists s.h.next (some []), next := A.next + 1 } (.splice s.h.next s.h.next l first last) := by
    refine ⟨⟨_, ht1⟩, ⟨_, hl1⟩, ?_, ?_, fun _ => hne⟩
    · rw [Abs.at_of hl1]; exact hr
    · exact Or.inl rfl
  obtain ⟨s2, e2, r2⟩ := splice_sz r1 hpre
  have ht2 : ∃ zs, (Abs.spec { lists := upd A.lists s.h.next (some []), next := A.next + 1 } (.splice s.h.next s.h.next l first last)).1.lists s.h.next = some zs := by
    simp only [Abs.spec, Abs.set, upd_same]; exact ⟨_, rfl⟩
  obtain ⟨zs, hz⟩ := ht2
  obtain ⟨s3, e3, r3⟩ := dropList_sz r2 hz
  refine ⟨s3, ?_, ?_⟩
  · unfold SHeap.erase
    simp only [Option.bind_eq_bind]
    have hf' : s.makeList.h.nextOf s.h.next = some (headId ([] : List (Nat × V)) s.h.next) := hfirst
    rw [hf']
    simp only [Option.bind_some]
    have e2' : s.makeList.splice s.h.next (headId ([] : List (Nat × V)) s.h.next) l first last = some s2 := e2
    rw [e2']
    exact e3
  · simp only [Abs.spec, Abs.at_of hl]
    have : (Abs.set A l (outside first last xs)).use 1 =
        { (Abs.spec { lists := upd A.lists s.h.next (some []), next := A.next + 1 } (.splice s.h.next s.h.next l first last)).1 with
          lists := upd (Abs.spec { lists := upd A.lists s.h.next (some []), next := A.next + 1 } (.splice s.h.next s.h.next l first last)).1.lists s.h.next none } := by
      have hat : Abs.at' ({ lists := upd A.lists s.h.next (some []), next := A.next + 1 } : Abs V) l = xs := Abs.at_of hl1
      simp only [Abs.spec, Abs.set, Abs.use, upd_upd, hat]
      congr 1
      funext k
      by_cases hk : k = s.h.next
      · subst hk; simp [upd_other _ _ (Ne.symm hlt), hn]
      · by_cases hkl : k = l
        · subst hkl; simp [upd, hk]
        · simp [upd, hk, hkl]
    rw [this]
    exact r3.dropMark (by simp)

theorem eraseOne_sz {s : SHeap V} {A : Abs V} {st : Nat → Bool} {l : Nat} {P Q : List (Nat × V)} {x : Nat × V} (r : SRel s A st)
    (hl : A.lists l = some (P ++ x :: Q)) :
    ∃ s', s.eraseOne l x.1 = some s' ∧ SRel s' ((A.set l (P ++ Q)).use 1) st := by
  obtain ⟨o1, o2, o3, o4⟩ := one_node (r.rel.nodup hl) (r.rel.notMem hl)
  obtain ⟨s', e, r'⟩ := erase_sz (first := x.1) (last := headId Q l) r ⟨⟨_, hl⟩, by rw [Abs.at_of hl]; exact o3⟩
  refine ⟨s', ?_, ?_⟩
  · unfold SHeap.eraseOne
    rw [if_neg, nextOf_node r.rel hl]
    · exact e
    · rintro e
      exact r.rel.notMem hl (by rw [← e]; simp [ids])
  · simp only [Abs.spec, Abs.at_of hl, o2] at r'
    exact r'

theorem insert_sz {s : SHeap V} {A : Abs V} {st : Nat → Bool} {l pos : Nat} {vs : List V} {fail : Option Nat} {xs} (r : SRel s A st)
    (hl : A.lists l = some xs) (hv : ValidPos l xs pos) :
    ∃ s', s.insert l pos vs fail = Out.of (SAbs.elems A (.base (.insert l pos vs fail))).2 s' ∧
      SRel s' (SAbs.elems A (.base (.insert l pos vs fail))).1 st := by
  obtain ⟨s1, e1, r1⟩ := makeFrom_sz (vs := vs) (fail := fail) r
  have hnone := r.fresh
  have hlt := r.ne_fresh hl
  simp only [SAbs.elems] at e1 r1 ⊢
  by_cases hlt' : Abs.made vs.length fail < vs.length
  · rw [if_pos hlt'] at e1 r1 ⊢
    refine ⟨s1, ?_, r1.dropMark hnone⟩
    simp only [SHeap.insert, e1, Out.of_true, Out.andThen_exn]
  · rw [if_neg hlt'] at e1 r1 ⊢
    simp only [Abs.spec, if_neg hlt'] at e1 r1 ⊢
    rw [Abs.at_of hl]
    generalize hB : (A.set A.next (number (A.next + 1) vs)).use (1 + vs.length) = B at r1
    have hBt : B.lists s.h.next = some (number (A.next + 1) vs) := by
      rw [← hB, ← r.rel.same]; simp [Abs.set, Abs.use]
    have hBl : B.lists l = some xs := by
      rw [← hB]; simp only [Abs.set, Abs.use]; rw [r.rel.same, upd_other _ _ hlt]; exact hl
    obtain ⟨s2, e2, r2⟩ := spliceAll_sz (l := l) (pos := pos) (o := s.h.next) r1
      ⟨⟨_, hBl⟩, ⟨_, hBt⟩, hlt, by rw [Abs.at_of hBl]; exact hv⟩
    have hBl' : (B.set s.h.next []).lists l = some xs := by simp only [Abs.set, upd_other _ _ hlt]; exact hBl
    simp only [Abs.spec, Abs.at_of hBt, Abs.at_of hBl'] at r2
    obtain ⟨s3, e3, r3⟩ := dropList_sz (l := s.h.next) (xs := []) r2 (by simp [Abs.set, upd_other _ _ (Ne.symm hlt)])
    refine ⟨s3, ?_, ?_⟩
    · simp only [SHeap.insert, e1, Out.of_false, Out.andThen_ok, e2, Option.bind_eq_bind, Option.bind_some, e3, ptr]
    · have hf : (A.set l (before pos xs ++ number (A.next + 1) vs ++ fromPos pos xs)).use (1 + vs.length) =
          { ((B.set s.h.next []).set l (before pos xs ++ number (A.next + 1) vs ++ fromPos pos xs)) with
            lists := upd ((B.set s.h.next []).set l (before pos xs ++ number (A.next + 1) vs ++ fromPos pos xs)).lists s.h.next none } := by
        subst hB
        simp only [Abs.set, Abs.use]
        congr 1
        funext k
        by_cases hk : k = s.h.next
        · subst hk; simp [upd_other _ _ (Ne.symm hlt), hnone]
        · by_cases hkl : k = l
          · subst hkl; simp [upd, hk]
          · simp [upd, hk, hkl, r.rel.same]
      rw [hf]
      refine r3.stale fun k zs hk hs => ?_
      have hkt : k ≠ s.h.next := by rintro rfl; simp at hk
      rw [upd_other _ _ hkt]
      by_cases hkl : k = l
      · subst hkl; simp [upd_other _ _ hkt, hs]
      · simp only [upd_other _ _ hkl, upd_other _ _ hkt]; exact hs

theorem pushFront_sz {s : SHeap V} {A : Abs V} {st : Nat → Bool} {l : Nat} {v : V} {fail : Bool} {xs} (r : SRel s A st) (hl : A.lists l = some xs) :
    ∃ s', s.pushFront l v fail = Out.of (A.spec (.pushFront l v fail)).2 s' ∧ SRel s' (A.spec (.pushFront l v fail)).1 st := by
  have r1 := makeList_sz r
  have hnone := r.fresh
  have hlt := r.ne_fresh hl
  have ht1 : (upd A.lists s.h.next (some ([] : List (Nat × V)))) s.h.next = some [] := by simp
  simp only [Abs.spec]
  rw [Abs.at_of hl]
  cases fail with
  | true =>
    obtain ⟨s2, e2, r2⟩ := dropList_sz r1 ht1
    refine ⟨s2, ?_, ?_⟩
    · have e2' : SHeap.dropList ⟨s.makeList.h, s.makeList.size⟩ s.h.next = some s2 := e2
      simp [SHeap.pushFront, SHeap.pushBack, LHeap.pushBack, e2']
    · simp only [upd_upd, upd_self hnone] at r2
      exact r2.dropMark hnone
  | false =>
    obtain ⟨s2, e2, r2⟩ := pushBack_sz r1 ht1 v
    simp only [Abs.set, Abs.use] at r2
    generalize hB : ({ lists := upd (upd A.lists s.h.next (some [])) s.h.next (some ([] ++ [(A.next + 1, v)])), next := A.next + 1 + 1 } : Abs V) = B at r2
    have hBt : B.lists s.h.next = some [(A.next + 1, v)] := by rw [← hB]; simp
    have hBl : B.lists l = some xs := by rw [← hB]; simp only [upd_other _ _ hlt]; exact hl
    have hfirst := ring_first (r2.rel.ring hBl)
    obtain ⟨s3, e3, r3⟩ := spliceAll_sz (l := l) (pos := headId xs l) (o := s.h.next) r2
      ⟨⟨_, hBl⟩, ⟨_, hBt⟩, hlt, by rw [Abs.at_of hBl]; exact validRange_all.1⟩
    have hBl' : (B.set s.h.next []).lists l = some xs := by simp only [Abs.set, upd_other _ _ hlt]; exact hBl
    simp only [Abs.spec, Abs.at_of hBt, Abs.at_of hBl', before_headId, from_headId] at r3
    obtain ⟨s4, e4, r4⟩ := dropList_sz (l := s.h.next) (xs := []) r3 (by simp [Abs.set, upd_other _ _ (Ne.symm hlt)])
    refine ⟨s4, ?_, ?_⟩
    · simp only [SHeap.pushFront, e2, ptr, Bool.false_eq_true, if_false, Out.of_false]
      rw [hfirst]
      simp only [Option.bind_eq_bind, Option.bind_some, e3, e4]
    · simp only [Bool.false_eq_true, if_false]
      have hf : (A.set l ((A.next + 1, v) :: xs)).use 2 =
          { ((B.set s.h.next []).set l ([] ++ [(A.next + 1, v)] ++ xs)) with
            lists := upd ((B.set s.h.next []).set l ([] ++ [(A.next + 1, v)] ++ xs)).lists s.h.next none } := by
        subst hB
        simp only [Abs.set, Abs.use]
        congr 1
        funext k
        by_cases hk : k = s.h.next
        · subst hk; simp [upd_other _ _ (Ne.symm hlt), hnone]
        · by_cases hkl : k = l
          · subst hkl; simp [upd, hk]
          · simp [upd, hk, hkl]
      rw [hf]
      refine r4.stale fun k zs hk hs => ?_
      have hkt : k ≠ s.h.next := by rintro rfl; simp at hk
      rw [upd_other _ _ hkt]
      by_cases hkl : k = l
      · subst hkl; simp [upd_other _ _ hkt, hs]
      · simp only [upd_other _ _ hkl, upd_other _ _ hkt]; exact hs

theorem eraseIfLoop_sz (p : V → Bool) : ∀ (Q : List (Nat × V)) {n : Nat} {s : SHeap V} {A : Abs V} {st : Nat → Bool} {l : Nat} {P : List (Nat × V)} {c : Nat}
    (_ : SRel s A st) (_ : A.lists l = some (P ++ Q)) (_ : Q.length < n),
    ∃ s', SHeap.eraseIfLoop p n s l (headId Q l) c = some (s', c + Q.countP fun x => p x.2) ∧
      SRel s' ((A.set l (P ++ Q.filter fun x => !p x.2)).use (Q.countP fun x => p x.2)) st := by
  intro Q
  induction Q with
  | nil =>
    intro n s A st l P c r hl hn
    cases n with
    | zero => simp at hn
    | succ n =>
      refine ⟨s, by simp [SHeap.eraseIfLoop, headId], ?_⟩
      simp only [List.filter_nil, List.countP_nil, Abs.set_self hl]
      exact r
  | cons x Q ih =>
    intro n s A st l P c r hl hn
    cases n with
    | zero => simp at hn
    | succ n =>
      have hv : s.h.valOf x.1 = some (some x.2) := r.rel.vals hl (by simp)
      obtain ⟨pv, nx, hc⟩ := cell_of_val hv
      have hnx : nx = headId Q l := by
        have := nextOf_node r.rel hl
        simp only [LHeap.nextOf, hc, Option.map_some, Option.some.injEq] at this
        exact this
      have hxl : x.1 ≠ l := fun e => r.rel.notMem hl (by rw [← e]; simp [ids])
      show ∃ s', SHeap.eraseIfLoop p (n + 1) s l x.1 c = _ ∧ _
      rw [SHeap.eraseIfLoop, if_neg hxl, hc]
      simp only
      by_cases hp : p x.2 = true
      · rw [if_pos hp]
        obtain ⟨s1, e1, r1⟩ := eraseOne_sz r hl
        obtain ⟨s2, e2, r2⟩ := ih (n := n) (c := c + 1) (l := l) (P := P) r1 (by simp [Abs.set, Abs.use]) (by simp at hn; omega)
        refine ⟨s2, ?_, ?_⟩
        · simp only [e1, Option.bind_eq_bind, Option.bind_some, hnx, e2]
          rw [List.countP_cons_of_pos (p := fun x : Nat × V => p x.2) hp]
          congr 2
          omega
        · rw [List.countP_cons_of_pos (p := fun x : Nat × V => p x.2) hp, List.filter_cons_of_neg (by simp [hp])]
          simp only [Abs.set, Abs.use, upd_upd] at r2 ⊢
          rw [Nat.add_assoc, Nat.add_comm 1] at r2
          exact r2
      · rw [if_neg hp]
        obtain ⟨s2, e2, r2⟩ := ih (n := n) (c := c) (l := l) (P := P ++ [x]) r (by simpa using hl) (by simp at hn; omega)
        refine ⟨s2, ?_, ?_⟩
        · rw [hnx, e2, List.countP_cons_of_neg (p := fun x : Nat × V => p x.2) hp]
        · rw [List.countP_cons_of_neg (p := fun x : Nat × V => p x.2) hp, List.filter_cons_of_pos (by simp [hp])]
          simpa using r2

theorem eraseIf_sz {s : SHeap V} {A : Abs V} {st : Nat → Bool} {l : Nat} {p : V → Bool} {xs} (r : SRel s A st) (hl : A.lists l = some xs) :
    ∃ s', s.eraseIf l p = some (s', xs.countP fun x => p x.2) ∧ SRel s' (A.spec (.eraseIf l p)).1 st := by
  obtain ⟨s', e, r'⟩ := eraseIfLoop_sz p xs (n := s.h.next + 1) (P := []) (c := 0) r (by simpa using hl) (Nat.lt_succ_of_le (r.rel.length_le hl))
  refine ⟨s', ?_, ?_⟩
  · unfold SHeap.eraseIf
    rw [ring_first (r.rel.ring hl)]
    simp only [Option.bind_eq_bind, Option.bind_some, e, Nat.zero_add]
  · simp only [Abs.spec, Abs.at_of hl]
    simpa using r'

/-- Changing values leaves the number of elements alone. -/
theorem SRel.setSame {s : SHeap V} {A : Abs V} {st : Nat → Bool} {l : Nat} {xs ys : List (Nat × V)} {h' : LHeap V} (r : SRel s A st) (hl : A.lists l = some xs)
    (r' : Rel h' (A.set l ys)) (he : ys.length = xs.length) : SRel ⟨h', s.size⟩ (A.set l ys) st := by
  refine ⟨r', ?_⟩
  intro k zs hk hs
  simp only [Abs.set] at hk
  by_cases hkl : k = l
  · subst hkl; simp only [upd_same, Option.some.injEq] at hk; rw [← hk, he]; exact r.size hl hs
  · rw [upd_other _ _ hkl] at hk; exact r.size hk hs

theorem assignFail_length (left : V) : ∀ (xs : List (Nat × V)) (vs : List V) (k : Nat), (Abs.assignFail left xs vs k).length = xs.length
  | [], _, _ => by simp [Abs.assignFail]
  | _ :: _, [], _ => by simp [Abs.assignFail]
  | _ :: _, _ :: _, 0 => by simp [Abs.assignFail]
  | _ :: xs, _ :: vs, k + 1 => by simp [Abs.assignFail, assignFail_length left xs vs k]

theorem assign_sz {s : SHeap V} {A : Abs V} {st : Nat → Bool} {l : Nat} {vs : List V} {left : V} {fail : Option Nat} {xs} (r : SRel s A st) (hl : A.lists l = some xs) :
    ∃ s', s.assign l vs left fail = Out.of (A.assignTo l vs left fail).2 s' ∧ SRel s' (A.assignTo l vs left fail).1 st := by
  have hfirst := ring_first (r.rel.ring hl)
  have hct := copyTruncate_op left vs (fail := fail) (P := []) (Q := xs) r.rel (by simpa using hl)
  unfold Abs.assignTo
  simp only [Abs.at_of hl]
  by_cases hlt : Abs.made vs.length fail < min xs.length vs.length
  · rw [if_pos hlt] at hct
    rw [if_pos hlt]
    obtain ⟨h1, rr, e1, r1⟩ := hct
    refine ⟨⟨h1, s.size⟩, ?_, r.setSame hl (by simpa using r1) (assignFail_length _ _ _ _)⟩
    simp only [SHeap.assign, hfirst, e1, Out.of_true]
  · rw [if_neg hlt] at hct
    rw [if_neg hlt]
    obtain ⟨h1, e1, r1⟩ := hct
    simp only [List.nil_append] at r1
    have r1 := r.setSame hl r1 (by simp only [List.length_append, List.length_zipWith, List.length_drop]; omega)
    generalize hZ : xs.zipWith (fun x v => (x.1, v)) vs = Z at r1
    have hl1 : (A.set l (Z ++ xs.drop vs.length)).lists l = some (Z ++ xs.drop vs.length) := by simp [Abs.set]
    have hno := r1.rel.notMem hl1
    have hno2 : l ∉ ids (xs.drop vs.length) := fun q => hno (by simp only [ids, List.map_append, List.mem_append]; exact Or.inr q)
    have hndz := r1.rel.nodup hl1
    have hez : ids (Z ++ xs.drop vs.length) = ids Z ++ ids (xs.drop vs.length) := by simp [ids]
    rw [hez] at hndz
    have hcut : ∀ {W : List (Nat × V)}, (∀ i, i ∈ ids W → i ∉ ids Z) → l ∉ ids Z →
        before (headId W l) (Z ++ W) = Z ∧ fromPos (headId W l) (Z ++ W) = W := by
      intro W hW hlZ
      cases W with
      | nil => simp only [List.append_nil]; exact ⟨before_of_not_mem hlZ, from_of_not_mem hlZ⟩
      | cons w W =>
        have : w.1 ∉ ids Z := hW w.1 (by simp [ids])
        exact ⟨before_cut this, from_cut this⟩
    obtain ⟨c1, c2⟩ := hcut (W := xs.drop vs.length) (fun i hi hz => (List.nodup_append.1 hndz).2.2 i hz i hi rfl)
      (fun q => hno (by simp only [ids, List.map_append, List.mem_append]; exact Or.inl q))
    obtain ⟨s2, e2, r2⟩ := erase_sz (l := l) (first := headId (xs.drop vs.length) l) (last := l) r1
      ⟨⟨_, hl1⟩, by
        rw [Abs.at_of hl1]
        refine ⟨?_, Or.inl rfl⟩
        rcases headId_uses l (xs.drop vs.length) with q | q
        · exact Or.inl q
        · exact Or.inr (by rw [hez]; simp only [List.mem_append]; exact Or.inr q)⟩
    simp only [Abs.spec, Abs.at_of hl1, outside, c1, c2, from_of_not_mem hno2, List.append_nil] at r2
    have hl2 : (((A.set l (Z ++ xs.drop vs.length)).set l Z).use 1).lists l = some Z := by simp [Abs.set, Abs.use]
    obtain ⟨s3, e3, r3⟩ := append_sz (vs.drop xs.length) (fail := fail.map (· - min xs.length vs.length)) r2 hl2
    have hmade : Abs.made (vs.drop xs.length).length (fail.map (· - min xs.length vs.length)) = Abs.made vs.length fail - xs.length := by
      have hle := made_le vs.length fail
      cases fail with
      | none => simp [Abs.made]
      | some k =>
        simp only [Abs.made, Option.map_some, List.length_drop] at hlt ⊢
        omega
    refine ⟨s3, ?_, ?_⟩
    · simp only [SHeap.assign, hfirst, e1, e2, e3, hmade]
      congr 1
      rw [decide_eq_decide, List.length_drop]
      have hle := made_le vs.length fail
      omega
    · rw [hmade] at r3
      simp only [Abs.set, Abs.use, upd_upd] at r3 ⊢
      rw [Nat.add_assoc] at r3
      exact r3

/-! ## `resize` -/

theorem SRel.sizeOf {s : SHeap V} {A : Abs V} {st : Nat → Bool} {l : Nat} {xs} (r : SRel s A st) (hl : A.lists l = some xs) (hs : st l = false) :
    s.sizeOf l = xs.length % 2 ^ 64 := by
  unfold SHeap.sizeOf
  rw [r.size hl hs]
  omega

theorem shrinkLoop_sz : ∀ (n : Nat) {s : SHeap V} {A : Abs V} {st : Nat → Bool} {l m : Nat} {xs : List (Nat × V)} (_ : SRel s A st) (_ : A.lists l = some xs)
    (_ : st l = false) (_ : xs.length < 2 ^ 64) (_ : m ≤ xs.length) (_ : xs.length < n),
    ∃ s', SHeap.shrinkLoop n s l m = some s' ∧ SRel s' (A.set l (xs.take m)) st := by
  intro n
  induction n with
  | zero => intro s A st l m xs _ _ _ _ _ h; omega
  | succ n ih =>
    intro s A st l m xs r hl hs hb hm hn
    have hz : s.sizeOf l = xs.length := by rw [r.sizeOf hl hs, Nat.mod_eq_of_lt hb]
    rw [SHeap.shrinkLoop, hz]
    by_cases he : xs.length = m
    · rw [if_pos he]
      refine ⟨s, rfl, ?_⟩
      rw [← he, List.take_length, Abs.set_self hl]; exact r
    · rw [if_neg he]
      obtain ⟨ys, y, rfl⟩ := (List.eq_nil_or_concat xs).resolve_left (by rintro rfl; simp at hm he; omega)
      have hl' : A.lists l = some (ys ++ [y]) := by simpa using hl
      obtain ⟨s1, e1, r1, _⟩ := popBack_sz r hl'
      simp only [e1, Option.bind_eq_bind, Option.bind_some]
      simp only [List.concat_eq_append, List.length_append, List.length_cons, List.length_nil] at hb hm hn he
      obtain ⟨s2, e2, r2⟩ := ih (l := l) (m := m) (xs := ys) r1 (by simp [Abs.set]) hs (by omega) (by omega) (by omega)
      refine ⟨s2, e2, ?_⟩
      simp only [Abs.set, upd_upd] at r2
      rw [List.concat_eq_append, List.take_append_of_le_length (by omega)]
      exact r2

theorem resize_sz {s : SHeap V} {A : Abs V} {st : Nat → Bool} {l m : Nat} {v : V} {fail : Option Nat} {xs} (r : SRel s A st) (hl : A.lists l = some xs)
    (hs : st l = false) (hb : xs.length < 2 ^ 64) :
    ∃ s', s.resize l m v fail = Out.of (SAbs.elems A (.resize l m v fail)).2 s' ∧ SRel s' (SAbs.elems A (.resize l m v fail)).1 st := by
  have hz : s.sizeOf l = xs.length := by rw [r.sizeOf hl hs, Nat.mod_eq_of_lt hb]
  simp only [SHeap.resize, SAbs.elems, hz, Abs.at_of hl]
  by_cases hm : m ≤ xs.length
  · rw [if_pos hm, if_pos hm]
    obtain ⟨s', e, r'⟩ := shrinkLoop_sz (s.h.next + 1) r hl hs hb hm (Nat.lt_succ_of_le (r.rel.length_le hl))
    exact ⟨s', by rw [e]; rfl, r'⟩
  · rw [if_neg hm, if_neg hm]
    obtain ⟨s', e, r'⟩ := append_sz (List.replicate (m - xs.length) v) (fail := fail) r hl
    refine ⟨s', e, ?_⟩
    simp only [Abs.spec, Abs.at_of hl]
    exact r'

/-! ## One operation -/

theorem copyOf_sz {s : SHeap V} {A : Abs V} {st : Nat → Bool} {src : Nat} {fail : Option Nat} (r : SRel s A st) (hp : A.pre (.copyOf src fail)) :
    ∃ s', s.copyOf src fail = Out.of (A.spec (.copyOf src fail)).2 s' ∧ SRel s' (A.spec (.copyOf src fail)).1 (upd st s.h.next (st src)) := by
  obtain ⟨h', e, r'⟩ := lstep_refines s.h A (.copyOf src fail) r.rel hp
  obtain ⟨⟨xs, hs⟩, hf⟩ := hp
  simp only [lstep] at e
  refine ⟨⟨h', upd s.size s.h.next (s.size src)⟩, ?_, r', ?_⟩
  · unfold SHeap.copyOf
    rw [e]
    cases (A.spec (LOp.copyOf src fail)).2 <;> rfl
  · intro k zs hk hst
    simp only [Abs.spec, Abs.at_of hs, List.length_map] at hk
    by_cases hkn : k = s.h.next
    · subst hkn
      simp only [upd_same] at hst ⊢
      split at hk
      · simp only [Abs.use, r.fresh] at hk; cases hk
      · simp only [Abs.set, Abs.use, ← r.rel.same, upd_same, Option.some.injEq] at hk
        rw [r.size hs hst, ← hk, number_length, List.length_map]
    · rw [upd_other _ _ hkn] at hst
      simp only [upd_other _ _ hkn]
      split at hk
      · exact r.size hk hst
      · simp only [Abs.set, Abs.use, r.rel.same, upd_other _ _ hkn] at hk
        exact r.size hk hst

theorem copyAssign_sz {s : SHeap V} {S : SAbs V} {l src : Nat} {left : V} {fail : Option Nat} (r : SRel s S.abs S.stale) (hp : S.abs.pre (.copyAssign l src left fail)) :
    ∃ s', s.copyAssign l src left fail = Out.of (S.abs.spec (.copyAssign l src left fail)).2 s' ∧
      SRel s' (S.abs.spec (.copyAssign l src left fail)).1 (S.marks (.base (.copyAssign l src left fail))) := by
  obtain ⟨h', e, r'⟩ := lstep_refines s.h S.abs (.copyAssign l src left fail) r.rel hp
  obtain ⟨⟨xs, hl⟩, ⟨ys, hs⟩⟩ := hp
  simp only [lstep] at e
  by_cases hls : l = src
  · subst hls
    have hb : (S.abs.spec (.copyAssign l l left fail)) = (S.abs, false) := by simp [Abs.spec]
    rw [hb] at e r' ⊢
    refine ⟨⟨h', upd s.size l (s.size l)⟩, ?_, r', ?_⟩
    · unfold SHeap.copyAssign; rw [e]; rfl
    · intro k zs hk hst
      simp only [SAbs.marks, if_true] at hst
      rw [upd_self rfl]
      exact r.size hk hst
  · simp only [SAbs.marks, if_neg hls]
    have hspec : S.abs.spec (.copyAssign l src left fail) = S.abs.assignTo l (ys.map (·.2)) left fail := by
      simp [Abs.spec, hls, Abs.at_of hs]
    rw [hspec] at e r' ⊢
    have hoth : ∀ {k zs}, (S.abs.assignTo l (ys.map (·.2)) left fail).1.lists k = some zs → k ≠ l → S.abs.lists k = some zs := by
      intro k zs hk hkl
      simp only [Abs.assignTo] at hk
      split at hk <;> simpa only [Abs.set, Abs.use, upd_other _ _ hkl] using hk
    cases hb : (S.abs.assignTo l (ys.map (·.2)) left fail).2 with
    | true =>
      rw [hb] at e
      refine ⟨⟨h', s.size⟩, by unfold SHeap.copyAssign; rw [e]; rfl, r', ?_⟩
      intro k zs hk hst
      simp only [if_true] at hst
      by_cases hkl : k = l
      · subst hkl
        simp only [upd_same, Abs.at_of hk, Abs.at_of hl, Bool.or_eq_false_iff, bne_eq_false_iff_eq] at hst
        rw [hst.2]; exact r.size hl hst.1
      · rw [upd_other _ _ hkl] at hst
        exact r.size (hoth hk hkl) hst
    | false =>
      rw [hb] at e
      refine ⟨⟨h', upd s.size l (s.size src)⟩, by unfold SHeap.copyAssign; rw [e]; rfl, r', ?_⟩
      intro k zs hk hst
      simp only [Bool.false_eq_true, if_false] at hst
      by_cases hkl : k = l
      · subst hkl
        simp only [upd_same] at hst ⊢
        rw [r.size hs hst]
        have hm : ¬ Abs.made ys.length fail < min xs.length ys.length := by
          intro q; simp only [Abs.assignTo, Abs.at_of hl, List.length_map, if_pos q] at hb; cases hb
        simp only [Abs.assignTo, Abs.at_of hl, List.length_map, if_neg hm, decide_eq_false_iff_not] at hb
        have hle := made_le ys.length fail
        simp only [Abs.assignTo, Abs.at_of hl, List.length_map, if_neg hm, Abs.set, Abs.use, upd_same, Option.some.injEq] at hk
        rw [← hk]
        simp only [List.length_append, List.length_zipWith, number_length, List.length_take, List.length_drop, List.length_map]
        omega
      · rw [upd_other _ _ hkl] at hst
        simp only [upd_other _ _ hkl]
        exact r.size (hoth hk hkl) hst

theorem sstep_refines (s : SHeap V) (S : SAbs V) (op : SOp V) (r : SRel s S.abs S.stale) (hp : S.pre op) :
    ∃ s', sstep s op = Out.of (S.spec op).2 s' ∧ SRel s' (S.spec op).1.abs (S.spec op).1.stale := by
  have hsame : S.abs.next = s.h.next := r.rel.same
  cases op with
  | resize l m v fail =>
    obtain ⟨⟨xs, hl⟩, hs, hb⟩ := hp
    rw [Abs.at_of hl] at hb
    exact resize_sz r hl hs hb
  | base op =>
  cases op with
  | new =>
    refine ⟨_, rfl, ?_⟩
    have := makeList_sz r
    simp only [SAbs.spec, SAbs.marks, hsame]
    rw [← r.rel.same] at this ⊢
    exact this
  | newFrom vs fail =>
    simp only [SAbs.spec, SAbs.marks, hsame]
    exact makeFrom_sz r
  | copyOf src fail =>
    simp only [SAbs.spec, SAbs.marks, hsame]
    exact copyOf_sz r hp
  | moveOf src =>
    obtain ⟨h', e, r'⟩ := lstep_refines s.h S.abs (.moveOf src) r.rel hp
    obtain ⟨xs, hs⟩ := hp
    have hst : src ≠ s.h.next := r.ne_fresh hs
    have e' : s.h.moveOf src = some h' := by
      simp only [lstep, ptr, Abs.spec, Out.of_false] at e
      split at e
      · cases e
      · injection e with e; subst e; assumption
    refine ⟨⟨h', upd s.size s.h.next (s.size src)⟩, by simp [sstep, SHeap.moveOf, e', ptr, SAbs.spec, SAbs.elems, Abs.spec], r', ?_⟩
    intro k zs hk hm
    simp only [SAbs.spec, SAbs.elems, Abs.spec, Abs.set, Abs.use, hsame, Abs.at_of hs] at hk
    simp only [SAbs.spec, SAbs.marks, hsame, Abs.at_of hs] at hm
    by_cases hks : k = src
    · subst hks
      simp only [upd_same, Option.some.injEq, Bool.or_eq_false_iff, Bool.not_eq_false', List.isEmpty_iff] at hk hm
      rw [← hk]
      simp only [upd_other _ _ hst]
      rw [r.size hs hm.1, hm.2]
    · rw [upd_other _ _ hks] at hk hm
      by_cases hkn : k = s.h.next
      · subst hkn
        simp only [upd_same, Option.some.injEq] at hk hm ⊢
        rw [← hk]; exact r.size hs hm
      · rw [upd_other _ _ hkn] at hk hm
        simp only [upd_other _ _ hkn]
        exact r.size hk hm
  | drop l =>
    obtain ⟨xs, hl⟩ := hp
    obtain ⟨s', e, r'⟩ := dropList_sz r hl
    exact ⟨s', by simp only [sstep, e, ptr, SAbs.spec, SAbs.elems, Abs.spec, Out.of_false], r'⟩
  | pushBack l v fail =>
    obtain ⟨xs, hl⟩ := hp
    cases fail with
    | true => exact ⟨s, rfl, r⟩
    | false =>
      obtain ⟨s', e, r'⟩ := pushBack_sz r hl v
      refine ⟨s', by simp [sstep, e, SAbs.spec, SAbs.elems, Abs.spec], ?_⟩
      simp only [SAbs.spec, SAbs.elems, Abs.spec, Abs.at_of hl, Bool.false_eq_true, if_false]
      exact r'
  | pushFront l v fail =>
    obtain ⟨xs, hl⟩ := hp
    exact pushFront_sz r hl
  | popBack l =>
    obtain ⟨⟨xs, hl⟩, hne⟩ := hp
    rw [Abs.at_of hl] at hne
    obtain ⟨ys, y, rfl⟩ := (List.eq_nil_or_concat xs).resolve_left hne
    obtain ⟨s', e, r', _⟩ := popBack_sz (xs := ys) (x := y) r (by simpa using hl)
    refine ⟨s', by simp only [sstep, e, ptr, SAbs.spec, SAbs.elems, Abs.spec, Out.of_false], ?_⟩
    simp only [SAbs.spec, SAbs.elems, Abs.spec, Abs.at_of hl]
    simpa [Abs.set, SAbs.marks] using r'
  | popFront l =>
    obtain ⟨⟨xs, hl⟩, hne⟩ := hp
    rw [Abs.at_of hl] at hne
    cases xs with
    | nil => exact absurd rfl hne
    | cons x xs =>
      obtain ⟨s', e, r'⟩ := eraseOne_sz (P := []) r (by simpa using hl)
      have hfirst := ring_first (r.rel.ring hl)
      refine ⟨s', ?_, ?_⟩
      · simp only [sstep, SHeap.popFront, SAbs.spec, SAbs.elems, Abs.spec, Out.of_false]
        rw [hfirst]
        have e' : s.eraseOne l (headId (x :: xs) l) = some s' := e
        simp only [Option.bind_eq_bind, Option.bind_some, e', ptr]
      · simp only [SAbs.spec, SAbs.elems, Abs.spec, Abs.at_of hl]
        exact r'
  | append l vs fail =>
    obtain ⟨xs, hl⟩ := hp
    obtain ⟨s', e, r'⟩ := append_sz vs (fail := fail) r hl
    refine ⟨s', e, ?_⟩
    simp only [SAbs.spec, SAbs.elems, Abs.spec, Abs.at_of hl]
    exact r'
  | insert l pos vs fail =>
    obtain ⟨⟨xs, hl⟩, hv⟩ := hp
    rw [Abs.at_of hl] at hv
    exact insert_sz r hl hv
  | erase l first last =>
    obtain ⟨s', e, r'⟩ := erase_sz r hp
    exact ⟨s', by simp only [sstep, e, ptr, SAbs.spec, SAbs.elems, Abs.spec, Out.of_false], r'⟩
  | eraseIf l p =>
    obtain ⟨xs, hl⟩ := hp
    obtain ⟨s', e, r'⟩ := eraseIf_sz (p := p) r hl
    exact ⟨s', by simp only [sstep, e, ptr, SAbs.spec, SAbs.elems, Abs.spec, Out.of_false, Option.map_some], r'⟩
  | clear l =>
    obtain ⟨xs, hl⟩ := hp
    obtain ⟨s', e, r'⟩ := clear_sz r hl
    exact ⟨s', by simp only [sstep, e, ptr, SAbs.spec, SAbs.elems, Abs.spec, Out.of_false], r'⟩
  | splice l pos o first last =>
    obtain ⟨s', e, r'⟩ := splice_sz r hp
    exact ⟨s', by simp only [sstep, e, ptr, SAbs.spec, SAbs.elems, Abs.spec, Out.of_false], r'⟩
  | spliceAll l pos o =>
    obtain ⟨s', e, r'⟩ := spliceAll_sz r hp
    exact ⟨s', by simp only [sstep, e, ptr, SAbs.spec, SAbs.elems, Abs.spec, Out.of_false], r'⟩
  | spliceOne l pos o it =>
    obtain ⟨s', e, r'⟩ := spliceOne_sz r hp
    exact ⟨s', by simp only [sstep, e, ptr, SAbs.spec, SAbs.elems, Abs.spec, Out.of_false], r'⟩
  | swap a b =>
    obtain ⟨⟨xs, ha⟩, ⟨ys, hb⟩⟩ := hp
    obtain ⟨h', e, r'⟩ := swap_spec r.rel ha hb
    refine ⟨⟨h', upd (upd s.size a (s.size b)) b (s.size a)⟩, by simp [sstep, SHeap.swap, e, ptr, SAbs.spec, SAbs.elems, Abs.spec], ?_, ?_⟩
    · simp only [SAbs.spec, SAbs.elems, Abs.spec, Abs.at_of ha, Abs.at_of hb]
      exact r'
    · intro k zs hk hm
      simp only [SAbs.spec, SAbs.elems, Abs.spec, Abs.set, Abs.at_of ha, Abs.at_of hb] at hk
      simp only [SAbs.spec, SAbs.marks] at hm
      by_cases hkb : k = b
      · subst hkb
        simp only [upd_same, Option.some.injEq] at hk hm ⊢
        rw [← hk]; exact r.size ha hm
      · rw [upd_other _ _ hkb] at hk hm
        simp only [upd_other _ _ hkb]
        by_cases hka : k = a
        · subst hka
          simp only [upd_same, Option.some.injEq] at hk hm ⊢
          rw [← hk]; exact r.size hb hm
        · rw [upd_other _ _ hka] at hk hm
          simp only [upd_other _ _ hka]
          exact r.size hk hm
  | moveAssign a b =>
    obtain ⟨⟨xs, ha⟩, ⟨ys, hb⟩⟩ := hp
    obtain ⟨h', e, r'⟩ := swap_spec r.rel ha hb
    refine ⟨⟨h', upd s.size a (s.size b)⟩, by simp [sstep, SHeap.moveAssign, e, ptr, SAbs.spec, SAbs.elems, Abs.spec], ?_, ?_⟩
    · simp only [SAbs.spec, SAbs.elems, Abs.spec, Abs.at_of ha, Abs.at_of hb]
      exact r'
    · intro k zs hk hm
      simp only [SAbs.spec, SAbs.elems, Abs.spec, Abs.set, Abs.at_of ha, Abs.at_of hb] at hk
      simp only [SAbs.spec, SAbs.marks, Abs.at_of ha, Abs.at_of hb] at hm
      by_cases hab : a = b
      · subst hab
        rw [if_pos rfl] at hm
        rw [ha] at hb; injection hb with hb; subst hb
        simp only [upd_upd, upd_self ha] at hk
        rw [upd_self rfl]
        exact r.size hk hm
      · rw [if_neg hab] at hm
        by_cases hkb : k = b
        · subst hkb
          simp only [upd_same, Option.some.injEq, Bool.or_eq_false_iff, bne_eq_false_iff_eq] at hk hm
          simp only [upd_other _ _ (Ne.symm hab)]
          rw [← hk, hm.2]
          exact r.size hb hm.1
        · rw [upd_other _ _ hkb] at hk hm
          by_cases hka : k = a
          · subst hka
            simp only [upd_same, Option.some.injEq] at hk hm ⊢
            rw [← hk]; exact r.size hb hm
          · rw [upd_other _ _ hka] at hk hm
            simp only [upd_other _ _ hka]
            exact r.size hk hm
  | assign l vs left fail =>
    obtain ⟨xs, hl⟩ := hp
    exact assign_sz r hl
  | copyAssign l src left fail => exact copyAssign_sz r hp

/-! ## Histories -/

/-- Nothing exists yet. -/
def SHeap.start (V : Type) : SHeap V := ⟨LHeap.start V, fun _ => 0⟩
/-- No lists. -/
def SAbs.start (V : Type) : SAbs V := ⟨Abs.start V, fun _ => false⟩

/-- C58. Any history of operations on any number of sized lists, with any pattern of
exceptions, runs without undefined behaviour; every list holds what the specification says,
and `size()` is the number of elements that traversal visits.

Missing from the full claim: lists that were moved from while they had elements
(`C58_moved_from_violated`, `C58_move_assign_violated`) or whose copy assignment threw after
elements had been added or removed (`C58_failed_assignment_violated`), until `size()` is set
again by one of the operations that `SAbs.marks` lists; and the two exceptions of C31. -/
theorem C58_history_partial (ops : List (SOp V)) (hp : PreHist SAbs.spec SAbs.pre (SAbs.start V) ops) :
    ∃ s, runHist sstep (SHeap.start V) ops = some (s, (specHist SAbs.spec (SAbs.start V) ops).2) ∧
      LShows s.h (specHist SAbs.spec (SAbs.start V) ops).1.abs ∧
      ∀ l xs, (specHist SAbs.spec (SAbs.start V) ops).1.abs.lists l = some xs →
        (specHist SAbs.spec (SAbs.start V) ops).1.stale l = false →
        ∃ vs, s.h.forward l = some vs ∧ s.sizeOf l = vs.length % 2 ^ 64 := by
  obtain ⟨s, e, r⟩ := runHist_refines (R := fun (s : SHeap V) (S : SAbs V) => SRel s S.abs S.stale) sstep_refines ops (SHeap.start V) (SAbs.start V)
    ⟨rel_start V, fun hl => by cases hl⟩ hp
  refine ⟨s, e, r.rel.shows, fun l xs hl hs => ⟨_, forward_spec r.rel hl, ?_⟩⟩
  rw [r.sizeOf hl hs, List.length_map]

/-- C58: after any history `==` of two lists whose counters are current is `==` of the sequences of elements that the specification says they hold. -/
theorem C58_equal_partial [BEq V] (ops : List (SOp V)) (hp : PreHist SAbs.spec SAbs.pre (SAbs.start V) ops) :
    ∃ s, runHist sstep (SHeap.start V) ops = some (s, (specHist SAbs.spec (SAbs.start V) ops).2) ∧
      ∀ l m xs ys, (specHist SAbs.spec (SAbs.start V) ops).1.abs.lists l = some xs → (specHist SAbs.spec (SAbs.start V) ops).1.abs.lists m = some ys →
        (specHist SAbs.spec (SAbs.start V) ops).1.stale l = false → (specHist SAbs.spec (SAbs.start V) ops).1.stale m = false →
        s.equal l m = some (xs.map Prod.snd == ys.map Prod.snd) := by
  obtain ⟨s, e, r⟩ := runHist_refines (R := fun (s : SHeap V) (S : SAbs V) => SRel s S.abs S.stale) sstep_refines ops (SHeap.start V) (SAbs.start V)
    ⟨rel_start V, fun hl => by cases hl⟩ hp
  refine ⟨s, e, fun l m xs ys hl hm sl sm => ?_⟩
  unfold SHeap.equal
  rw [forward_spec r.rel hl, forward_spec r.rel hm, r.sizeOf hl sl, r.sizeOf hm sm]
  have key : ∀ (as bs : List V), (as == bs) = true → as.length = bs.length := by
    intro as
    induction as with
    | nil => intro bs h; cases bs with
      | nil => rfl
      | cons b bs => simp at h
    | cons a as ih => intro bs h; cases bs with
      | nil => simp at h
      | cons b bs =>
        have h' : (a == b && as == bs) = true := h
        rw [Bool.and_eq_true] at h'
        simp [ih bs h'.2]
  show some _ = some _
  cases h : (xs.map Prod.snd == ys.map Prod.snd) with
  | false => simp
  | true =>
    have := key _ _ h
    rw [List.length_map, List.length_map] at this
    simp [this]

/-- Neither a move construction nor a move assignment nor a copy assignment that throws. -/
def SOp.plain : SOp V → Bool
  | .base (.moveOf _) | .base (.moveAssign _ _) => false
  | .base (.copyAssign _ _ _ fail) => fail.isNone
  | _ => true

theorem marks_plain {S : SAbs V} {op : SOp V} (h : op.plain = true) (hs : S.stale = fun _ => false) : S.marks op = fun _ => false := by
  have hu : ∀ (i : Nat), upd (fun _ => false) i false = fun _ => false := fun i => upd_self rfl
  cases op with
  | resize => exact hs
  | base op =>
    cases op <;> simp only [SOp.plain, Bool.false_eq_true, Option.isNone_iff_eq_none] at h <;>
      simp only [SAbs.marks, hs, hu, Bool.or_false]
    subst h
    have : ∀ (A : Abs V) l vs left, (A.assignTo l vs left none).2 = false := by
      intro A l vs left
      unfold Abs.assignTo
      rw [if_neg (by simp only [Abs.made]; omega)]
      simp [Abs.made]
    simp only [Abs.spec]
    split
    · rfl
    · simp [this]

theorem stale_plain : ∀ (ops : List (SOp V)) (S : SAbs V), (∀ op ∈ ops, op.plain = true) → (S.stale = fun _ => false) →
    (specHist SAbs.spec S ops).1.stale = fun _ => false := by
  intro ops
  induction ops with
  | nil => intro S _ hs; exact hs
  | cons op ops ih =>
    intro S h hs
    exact ih _ (fun o ho => h o (by simp [ho])) (marks_plain (h op (by simp)) hs)

/-- C58 for programs that do not move lists and whose copy assignments do not throw: `size()`
is right for every list, whatever else throws. -/
theorem C58_without_moves (ops : List (SOp V)) (hp : PreHist SAbs.spec SAbs.pre (SAbs.start V) ops) (hn : ∀ op ∈ ops, op.plain = true) :
    ∃ s, runHist sstep (SHeap.start V) ops = some (s, (specHist SAbs.spec (SAbs.start V) ops).2) ∧
      ∀ l, (specHist SAbs.spec (SAbs.start V) ops).1.abs.Has l → ∃ vs, s.h.forward l = some vs ∧ s.sizeOf l = vs.length % 2 ^ 64 := by
  obtain ⟨s, e, _, h⟩ := C58_history_partial ops hp
  exact ⟨s, e, fun l ⟨xs, hl⟩ => h l xs hl (by rw [stale_plain ops _ hn rfl])⟩

/-- A concrete history: `push_back` that throws, construction from a range, a splice between
lists, `insert`, `erase`, `resize` in both directions, a copy, a swap. -/
def sizedDemo : List (SOp Nat) :=
  [.base .new, .base (.newFrom [1, 2, 3] none), .base (.pushBack 0 9 true), .base (.pushBack 0 9 false),
   .base (.splice 0 0 1 3 1), .base (.insert 0 5 [7, 8] none), .base (.erase 0 3 4), .resize 0 6 6 none,
   .resize 0 3 6 none, .base (.copyOf 0 none), .base (.swap 0 1)]

example : PreHist SAbs.spec SAbs.pre (SAbs.start Nat) sizedDemo := by
  refine ⟨?_, ?_, ?_, ?_, ?_, ?_, ?_, ?_, ?_, ?_, ?_, trivial⟩ <;>
    simp [SAbs.pre, SAbs.spec, SAbs.elems, SAbs.marks, SAbs.start, Abs.pre, Abs.Has, Abs.spec, Abs.start, Abs.set, Abs.use, Abs.at', Abs.made, upd,
      ValidPos, ValidRange, before, fromPos, within, outside, ids, number, List.takeWhile, List.dropWhile]

example : ∀ op ∈ sizedDemo, op.plain = true := by decide

example : (runHist sstep (SHeap.start Nat) sizedDemo).map (fun p => (p.1.h.forward 0, p.1.sizeOf 0, p.1.h.forward 1, p.1.sizeOf 1)) =
    some (some [1], 1, some [7, 8, 9], 3) := by decide +kernel

example : (runHist sstep (SHeap.start Nat) sizedDemo).map (fun p => (p.1.equal 0 0, p.1.equal 0 1)) = some (some true, some false) := by decide +kernel

/-- C58 is violated: a list that was moved from is empty and reports the size it had, so it
differs from an empty list, and making it empty with `resize` is undefined behaviour. -/
theorem C58_moved_from_violated :
    ∃ s, runHist sstep (SHeap.start Nat) [.base (.newFrom [1, 2] none), .base (.moveOf 0), .base .new] = some (s, [false, false, false]) ∧
      s.h.forward 0 = some [] ∧ s.sizeOf 0 = 2 ∧ s.h.forward 4 = some [] ∧ s.equal 0 4 = some false ∧
      s.resize 0 0 7 none = .ub :=
  ⟨_, rfl, by decide +kernel, by decide +kernel, by decide +kernel, by decide +kernel, rfl⟩

/-- C58 is violated: move assignment exchanges the elements, the source keeps its counter. -/
theorem C58_move_assign_violated :
    ∃ s, runHist sstep (SHeap.start Nat) [.base (.newFrom [1] none), .base (.newFrom [2, 3] none), .base (.moveAssign 0 2)] =
        some (s, [false, false, false]) ∧
      s.h.forward 0 = some [2, 3] ∧ s.sizeOf 0 = 2 ∧ s.h.forward 2 = some [1] ∧ s.sizeOf 2 = 2 :=
  ⟨_, rfl, by decide +kernel, by decide +kernel, by decide +kernel, by decide +kernel⟩

/-- C58 is violated: a copy assignment that throws while adding the second element leaves one
element and a counter of zero. -/
theorem C58_failed_assignment_violated :
    ∃ s, runHist sstep (SHeap.start Nat) [.base .new, .base (.newFrom [1, 2] none), .base (.copyAssign 0 1 0 (some 1))] =
        some (s, [false, false, true]) ∧
      s.h.forward 0 = some [1] ∧ s.sizeOf 0 = 0 :=
  ⟨_, rfl, by decide +kernel, by decide +kernel⟩

end Verif.Lists
