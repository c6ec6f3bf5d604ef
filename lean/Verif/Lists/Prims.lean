import Verif.Lists.Inv
import Mathlib.Data.List.Perm.Subperm
import Mathlib.Data.List.Induction

/-!
# The primitive operations of doubly linked lists keep the invariant
-/

namespace Verif.Lists

variable {V : Type}

/-- Something new at the next address: nothing else changes. -/
theorem alloc_facts (h : LHeap V) (c : Link V) :
    let h' : LHeap V := { cell := upd h.cell h.next (some c), next := h.next + 1 }
    (∀ x, x ≠ h.next → h'.nextOf x = h.nextOf x ∧ h'.prevOf x = h.prevOf x ∧ h'.valOf x = h.valOf x) ∧
      h'.valOf h.next = some c.val := by
  refine ⟨fun x hx => ?_, ?_⟩
  · simp [LHeap.nextOf, LHeap.prevOf, LHeap.valOf, upd, hx]
  · simp [LHeap.valOf]

theorem inner_congr {h h' : LHeap V} {xs : List Nat} (hi : Inner h xs)
    (hs : ∀ x ∈ xs, h'.nextOf x = h.nextOf x ∧ h'.prevOf x = h.prevOf x) : Inner h' xs :=
  inner_frame hi (fun x hx => (hs x (mem_dropLast hx)).1) (fun x hx => (hs x (mem_tail hx)).2)

theorem ring_uses {k : Nat} {xs : List (Nat × V)} {x : Nat} (hx : x ∈ k :: (ids xs ++ [k])) : RelD.Uses k xs x := by
  simp only [List.mem_cons, List.mem_append, List.not_mem_nil, or_false] at hx
  rcases hx with q | q | q
  · exact Or.inl q
  · exact Or.inr q
  · exact Or.inl q

theorem makeNode_spec {h : LHeap V} {A : Abs V} (r : Rel h A) (v : V) :
    RelD (h.makeNode v) { A with next := A.next + 1 } [(h.next, v)] ∧ ∀ x, x ≠ h.next → (h.makeNode v).prevOf x = h.prevOf x := by
  obtain ⟨f1, f2⟩ := alloc_facts h ⟨h.next, h.next, some v⟩
  have hne : ∀ {x}, h.valOf x ≠ none → x ≠ h.next := by
    rintro x hx rfl; exact hx (r.fresh _ (Nat.le_refl _))
  refine ⟨?_, fun x hx => (f1 x hx).2.1⟩
  constructor
  case fresh => intro a ha; exact ((f1 a (by simp [LHeap.makeNode] at ha; omega)).2.2).trans (r.fresh a (by simp [LHeap.makeNode] at ha; omega))
  case same => simp only [LHeap.makeNode, r.same]
  case ring =>
    intro k xs hk
    exact inner_congr (r.ring hk) fun x hx => ⟨(f1 x (hne (r.usesVal hk (ring_uses hx)))).1, (f1 x (hne (r.usesVal hk (ring_uses hx)))).2.1⟩
  case nodup => exact r.nodup
  case sent => intro k xs hk; exact ((f1 k (hne (by rw [r.sent hk]; simp))).2.2).trans (r.sent hk)
  case vals => intro k xs i w hk hi; exact ((f1 i (hne (by rw [r.vals hk hi]; simp))).2.2).trans (r.vals hk hi)
  case apart => exact r.apart
  case dinner => exact List.IsChain.singleton _
  case dnodup => simp [ids]
  case dvals => intro i w hi; simp at hi; rw [hi.1, hi.2]; exact f2
  case dapart =>
    intro k xs i hk hi hd
    simp [ids] at hd
    exact hne (r.usesVal hk (Or.inr hi)) hd
  case sentOf =>
    intro a ha
    by_cases hx : a = h.next
    · rw [hx] at ha; have := f2.symm.trans ha; simp at this
    · exact r.sentOf (((f1 a hx).2.2).symm.trans ha)
  case nodeOf =>
    intro a w ha
    by_cases hx : a = h.next
    · rw [hx] at ha; have := f2.symm.trans ha; simp at this; right; rw [hx, this]; simp
    · rcases r.nodeOf (((f1 a hx).2.2).symm.trans ha) with q | q
      · exact Or.inl q
      · cases q

theorem makeList_spec {h : LHeap V} {A : Abs V} (r : Rel h A) :
    Rel h.makeList { lists := upd A.lists h.next (some []), next := A.next + 1 } ∧ A.lists h.next = none := by
  obtain ⟨f1, f2⟩ := alloc_facts h ⟨h.next, h.next, none⟩
  have hne : ∀ {x}, h.valOf x ≠ none → x ≠ h.next := by
    rintro x hx rfl; exact hx (r.fresh _ (Nat.le_refl _))
  have hnone : A.lists h.next = none := by
    cases hc : A.lists h.next with
    | none => rfl
    | some xs => exact absurd rfl (hne (by rw [r.sent hc]; simp))
  refine ⟨?_, hnone⟩
  constructor
  case fresh => intro a ha; exact ((f1 a (by simp [LHeap.makeList] at ha; omega)).2.2).trans (r.fresh a (by simp [LHeap.makeList] at ha; omega))
  case same => simp only [LHeap.makeList, r.same]
  case ring =>
    intro k xs hk
    by_cases hkn : k = h.next
    · subst hkn
      simp only [upd_same, Option.some.injEq] at hk
      subst hk
      show List.IsChain _ [h.next, h.next]
      rw [List.isChain_cons_cons]
      exact ⟨⟨by simp [LHeap.nextOf, LHeap.makeList], by simp [LHeap.prevOf, LHeap.makeList]⟩, List.IsChain.singleton _⟩
    · simp only [upd_other _ _ hkn] at hk
      exact inner_congr (r.ring hk) fun x hx => ⟨(f1 x (hne (r.usesVal hk (ring_uses hx)))).1, (f1 x (hne (r.usesVal hk (ring_uses hx)))).2.1⟩
  case nodup =>
    intro k xs hk
    by_cases hkn : k = h.next
    · subst hkn
      simp only [upd_same, Option.some.injEq] at hk
      subst hk
      exact List.nodup_nil
    · simp only [upd_other _ _ hkn] at hk; exact r.nodup hk
  case sent =>
    intro k xs hk
    by_cases hkn : k = h.next
    · subst hkn; exact f2
    · simp only [upd_other _ _ hkn] at hk
      exact ((f1 k hkn).2.2).trans (r.sent hk)
  case vals =>
    intro k xs i w hk hi
    by_cases hkn : k = h.next
    · subst hkn
      simp only [upd_same, Option.some.injEq] at hk
      subst hk
      cases hi
    · simp only [upd_other _ _ hkn] at hk
      exact ((f1 i (hne (by rw [r.vals hk hi]; simp))).2.2).trans (r.vals hk hi)
  case apart =>
    intro k k' xs ys i hk hk' hi hi'
    by_cases hkn : k = h.next
    · subst hkn
      simp only [upd_same, Option.some.injEq] at hk
      subst hk
      cases hi
    · by_cases hkn' : k' = h.next
      · subst hkn'
        simp only [upd_same, Option.some.injEq] at hk'
        subst hk'
        cases hi'
      · simp only [upd_other _ _ hkn] at hk
        simp only [upd_other _ _ hkn'] at hk'
        exact r.apart hk hk' hi hi'
  case dinner => exact List.IsChain.nil
  case dnodup => exact List.nodup_nil
  case dvals => intro i v hi; cases hi
  case dapart => intro k xs i _ _ hd; cases hd
  case sentOf =>
    intro a ha
    by_cases hx : a = h.next
    · exact ⟨[], by rw [hx]; simp⟩
    · obtain ⟨xs, hxs⟩ := r.sentOf (((f1 a hx).2.2).symm.trans ha)
      exact ⟨xs, by simp only [upd_other _ _ hx]; exact hxs⟩
  case nodeOf =>
    intro a w ha
    by_cases hx : a = h.next
    · rw [hx] at ha; have := f2.symm.trans ha; simp at this
    · rcases r.nodeOf (((f1 a hx).2.2).symm.trans ha) with ⟨k, xs, hk, hm⟩ | q
      · refine Or.inl ⟨k, xs, ?_, hm⟩
        have : k ≠ h.next := by rintro rfl; rw [hnone] at hk; cases hk
        simp only [upd_other _ _ this]; exact hk
      · cases q

/-- Something removed: nothing else changes. -/
theorem free_facts (h : LHeap V) (a : Nat) :
    let h' : LHeap V := { h with cell := upd h.cell a none }
    (∀ x, x ≠ a → h'.nextOf x = h.nextOf x ∧ h'.prevOf x = h.prevOf x ∧ h'.valOf x = h.valOf x) ∧
      h'.valOf a = none := by
  refine ⟨fun x hx => ?_, ?_⟩
  · simp [LHeap.nextOf, LHeap.prevOf, LHeap.valOf, upd, hx]
  · simp [LHeap.valOf]

theorem cell_of_val {h : LHeap V} {a : Nat} {w : Option V} (hv : h.valOf a = some w) : ∃ p n, h.cell a = some ⟨p, n, w⟩ := by
  unfold LHeap.valOf at hv
  cases hc : h.cell a with
  | none => rw [hc] at hv; cases hv
  | some c =>
    rw [hc] at hv
    simp at hv
    exact ⟨c.prev, c.next, by rw [← hv]⟩

theorem destroyNode_spec {h : LHeap V} {A : Abs V} {a : Nat} {v : V} (r : RelD h A [(a, v)]) :
    ∃ h', h.destroyNode a = some h' ∧ Rel h' A ∧ h'.next = h.next := by
  have hv : h.valOf a = some (some v) := r.dvals (by simp)
  obtain ⟨p, n, hc⟩ := cell_of_val hv
  obtain ⟨f1, f2⟩ := free_facts h a
  refine ⟨{ h with cell := upd h.cell a none }, by simp [LHeap.destroyNode, hc], ?_, rfl⟩
  have hd : a ∈ ids [(a, v)] := by simp [ids]
  have hne : ∀ {k xs x}, A.lists k = some xs → RelD.Uses k xs x → x ≠ a := by
    rintro k xs x hk hx rfl
    exact r.dUsesApart hk hd hx
  constructor
  case fresh =>
    intro x hx
    by_cases hxa : x = a
    · rw [hxa]; exact f2
    · exact ((f1 x hxa).2.2).trans (r.fresh x hx)
  case same => exact r.same
  case ring => intro k xs hk; exact inner_congr (r.ring hk) fun x hx => ⟨(f1 x (hne hk (ring_uses hx))).1, (f1 x (hne hk (ring_uses hx))).2.1⟩
  case nodup => exact r.nodup
  case sent => intro k xs hk; exact ((f1 k (hne hk (Or.inl rfl))).2.2).trans (r.sent hk)
  case vals => intro k xs i w hk hi; exact ((f1 i (hne hk (Or.inr (mem_ids.2 ⟨w, hi⟩)))).2.2).trans (r.vals hk hi)
  case apart => exact r.apart
  case dinner => exact List.IsChain.nil
  case dnodup => exact List.nodup_nil
  case dvals => intro i v hi; cases hi
  case dapart => intro k xs i _ _ hd; cases hd
  case sentOf =>
    intro x hx
    by_cases hxa : x = a
    · rw [hxa] at hx; have := f2.symm.trans hx; simp at this
    · exact r.sentOf (((f1 x hxa).2.2).symm.trans hx)
  case nodeOf =>
    intro x w hx
    by_cases hxa : x = a
    · rw [hxa] at hx; have := f2.symm.trans hx; simp at this
    · rcases r.nodeOf (((f1 x hxa).2.2).symm.trans hx) with q | q
      · exact Or.inl q
      · simp at q; exact absurd q.1 hxa

theorem freeList_spec {h : LHeap V} {A : Abs V} {l : Nat} (r : Rel h A) (hl : A.lists l = some []) :
    ∃ h', h.freeList l = some h' ∧ Rel h' { A with lists := upd A.lists l none } := by
  obtain ⟨p, n, hc⟩ := cell_of_val (r.sent hl)
  obtain ⟨f1, f2⟩ := free_facts h l
  refine ⟨{ h with cell := upd h.cell l none }, by simp [LHeap.freeList, hc], ?_⟩
  have hn : ∀ {k xs}, (upd A.lists l none) k = some xs → k ≠ l ∧ A.lists k = some xs := by
    intro k xs hk
    by_cases hkl : k = l
    · subst hkl; simp at hk
    · rw [upd_other _ _ hkl] at hk; exact ⟨hkl, hk⟩
  have hne : ∀ {k xs x}, k ≠ l → A.lists k = some xs → RelD.Uses k xs x → x ≠ l := by
    rintro k xs x hkl hk hx rfl
    exact r.usesApart hl hk hkl (Or.inl rfl) hx
  constructor
  case fresh =>
    intro x hx
    by_cases hxa : x = l
    · rw [hxa]; exact f2
    · exact ((f1 x hxa).2.2).trans (r.fresh x hx)
  case same => exact r.same
  case ring =>
    intro k xs hk
    obtain ⟨a, b⟩ := hn hk
    exact inner_congr (r.ring b) fun x hx => ⟨(f1 x (hne a b (ring_uses hx))).1, (f1 x (hne a b (ring_uses hx))).2.1⟩
  case nodup => intro k xs hk; exact r.nodup (hn hk).2
  case sent => intro k xs hk; exact ((f1 k (hn hk).1).2.2).trans (r.sent (hn hk).2)
  case vals =>
    intro k xs i w hk hi
    exact ((f1 i (hne (hn hk).1 (hn hk).2 (Or.inr (mem_ids.2 ⟨w, hi⟩)))).2.2).trans (r.vals (hn hk).2 hi)
  case apart => intro k k' xs ys i hk hk'; exact r.apart (hn hk).2 (hn hk').2
  case dinner => exact List.IsChain.nil
  case dnodup => exact List.nodup_nil
  case dvals => intro i v hi; cases hi
  case dapart => intro k xs i _ _ hd; cases hd
  case sentOf =>
    intro x hx
    by_cases hxa : x = l
    · rw [hxa] at hx; have := f2.symm.trans hx; simp at this
    · obtain ⟨xs, q⟩ := r.sentOf (((f1 x hxa).2.2).symm.trans hx)
      exact ⟨xs, by simp only [upd_other _ _ hxa]; exact q⟩
  case nodeOf =>
    intro x w hx
    by_cases hxa : x = l
    · rw [hxa] at hx; have := f2.symm.trans hx; simp at this
    · rcases r.nodeOf (((f1 x hxa).2.2).symm.trans hx) with ⟨k, xs, hk, hm⟩ | q
      · have hkl : k ≠ l := by
          rintro rfl
          rw [hl] at hk
          injection hk with hk
          subst hk
          cases hm
        exact Or.inl ⟨k, xs, by simp only [upd_other _ _ hkl]; exact hk, hm⟩
      · cases q

theorem abs_upd_upd {A : Abs V} {l : Nat} {x y : Option (List (Nat × V))} {n : Nat} :
    ({ lists := upd (upd A.lists l x) l y, next := n } : Abs V) = { lists := upd A.lists l y, next := n } := by
  congr 1
  funext k
  by_cases hk : k = l <;> simp [upd, hk]

theorem upd_upd {X : Type} (f : Nat → X) (l : Nat) (x y : X) : upd (upd f l x) l y = upd f l y := by
  funext k
  by_cases hk : k = l <;> simp [upd, hk]

theorem upd_self {X : Type} {f : Nat → X} {l : Nat} {x : X} (h : f l = x) : upd f l x = f := by
  funext k
  by_cases hk : k = l <;> simp [upd, hk, h]

theorem last_prev {h : LHeap V} {A : Abs V} {D} (r : RelD h A D) {l : Nat} {P Q : List (Nat × V)} (hl : A.lists l = some (P ++ Q)) :
    h.prevOf (headId Q l) = some (lastId l P) :=
  (ring_split.1 (r.ring hl)).2.2.2

/-- `lazy_push_back` -/
theorem pushNode_spec {h : LHeap V} {A : Abs V} {l : Nat} {xs : List (Nat × V)} (r : Rel h A) (hl : A.lists l = some xs) (v : V) :
    ∃ h', h.pushNode l v = some h' ∧
      Rel h' { lists := upd A.lists l (some (xs ++ [(A.next, v)])), next := A.next + 1 } := by
  obtain ⟨r1, p1⟩ := makeNode_spec r v
  have hl1 : ({ A with next := A.next + 1 } : Abs V).lists l = some (xs ++ []) := by simpa using hl
  obtain ⟨h', e, r', _⟩ := link_spec r1 hl1 (by simp)
  refine ⟨h', ?_, ?_⟩
  · have hp := last_prev r1 hl1
    unfold LHeap.pushNode
    simp only [headId, ids, List.map_nil, List.headD_nil] at hp
    simp only [Option.bind_eq_bind]
    rw [hp]
    exact e
  · rw [r.same]
    rw [r.same] at r'
    simpa using r'

/-- `pop_back` -/
theorem popBack_spec {h : LHeap V} {A : Abs V} {l : Nat} {xs : List (Nat × V)} {x : Nat × V} (r : Rel h A)
    (hl : A.lists l = some (xs ++ [x])) :
    ∃ h', h.popBack l = some h' ∧ Rel h' { A with lists := upd A.lists l (some xs) } ∧ h'.next = h.next := by
  have hl1 : A.lists l = some (xs ++ ([x] ++ [])) := by simpa using hl
  obtain ⟨h1, e1, r1, _, _⟩ := unlink_spec r hl1 (by simp)
  obtain ⟨h2, e2, r2, n2⟩ := destroyNode_spec (a := x.1) (v := x.2) r1
  refine ⟨h2, ?_, by simpa using r2, ?_⟩
  · have hp := last_prev (Q := []) r (by simpa using hl)
    unfold LHeap.popBack
    simp only [headId, ids, List.map_nil, List.headD_nil] at hp
    simp only [Option.bind_eq_bind]
    rw [hp]
    have hlast : lastId l (xs ++ [x]) = x.1 := by simp [lastId, ids]
    rw [hlast]
    simp only [Option.bind_some]
    have e1' : h.unlinkRange x.1 l = some h1 := e1
    rw [e1']
    exact e2
  · rw [← r2.same]; exact r.same

theorem clearLoop_spec : ∀ (n : Nat) {h : LHeap V} {A : Abs V} {l : Nat} {xs : List (Nat × V)} (_ : Rel h A)
    (_ : A.lists l = some xs) (_ : xs.length < n),
    ∃ h', LHeap.clearLoop n h l = some h' ∧ Rel h' { A with lists := upd A.lists l (some []) } := by
  intro n
  induction n with
  | zero => intro h A l xs r hl hn; omega
  | succ n ih =>
    intro h A l xs r hl hn
    have hfirst : h.nextOf l = some (headId xs l) := by
      have := (ring_split (xs := []) (ys := xs).1 (r.ring hl)).2.2.1
      simpa [lastId] using this
    unfold LHeap.clearLoop
    rw [hfirst]
    simp only [Option.bind_eq_bind, Option.bind_some]
    rcases List.eq_nil_or_concat xs with rfl | ⟨ys, y, rfl⟩
    · refine ⟨h, by simp [headId], ?_⟩
      rw [upd_self hl]; exact r
    · have hl' : A.lists l = some (ys ++ [y]) := by simpa using hl
      have hne : headId (ys.concat y) l ≠ l := by
        have hm : headId (ys.concat y) l ∈ ids (ys.concat y) := headId_mem (by simp)
        exact r.sentNe hl hl hm
      rw [if_neg hne]
      obtain ⟨h1, e1, r1, _⟩ := popBack_spec r hl'
      rw [e1]
      simp only [Option.bind_some]
      obtain ⟨h2, e2, r2⟩ := ih (l := l) (xs := ys) r1 (by simp) (by simp at hn; omega)
      refine ⟨h2, e2, ?_⟩
      rw [upd_upd] at r2
      exact r2

/-- Distinct addresses below `n`: at most `n` of them. -/
theorem length_le_of_nodup_lt : ∀ {xs : List Nat} {n : Nat}, xs.Nodup → (∀ x ∈ xs, x < n) → xs.length ≤ n := by
  intro xs n hn hlt
  have h := (List.subperm_of_subset hn (fun x hx => List.mem_range.2 (hlt x hx) : xs ⊆ List.range n)).length_le
  simpa using h

theorem RelD.length_le {h : LHeap V} {A : Abs V} {D} (r : RelD h A D) {l xs} (hl : A.lists l = some xs) : xs.length ≤ h.next := by
  have := length_le_of_nodup_lt (r.nodup hl) (fun x hx => r.lt (r.usesVal hl (Or.inr hx)))
  simpa using this

/-- `clear` -/
theorem clear_spec {h : LHeap V} {A : Abs V} {l : Nat} {xs : List (Nat × V)} (r : Rel h A) (hl : A.lists l = some xs) :
    ∃ h', h.clear l = some h' ∧ Rel h' { A with lists := upd A.lists l (some []) } :=
  clearLoop_spec _ r hl (Nat.lt_succ_of_le (r.length_le hl))

/-- `splice` of a non-empty range; `P ++ Q` is what remains of the other list, `R ++ S` the
target, cut at the position. -/
theorem splice_spec {h : LHeap V} {A : Abs V} {l o : Nat} {P M Q R S : List (Nat × V)} (r : Rel h A)
    (ho : A.lists o = some (P ++ (M ++ Q))) (hM : M ≠ [])
    (hl : upd A.lists o (some (P ++ Q)) l = some (R ++ S)) (hpos : headId S l ≠ headId Q o) :
    ∃ h', h.splice (headId S l) (headId M o) (headId Q o) = some h' ∧
      Rel h' { A with lists := upd (upd A.lists o (some (P ++ Q))) l (some (R ++ (M ++ S))) } := by
  obtain ⟨h1, e1, r1, p1, _⟩ := unlink_spec r ho hM
  obtain ⟨h2, e2, r2, _⟩ := link_spec r1 hl hM
  refine ⟨h2, ?_, r2⟩
  have hne : headId M o ≠ headId Q o := by
    intro e
    have hm := headId_mem (k := o) hM
    rw [e] at hm
    have hn := r.consNodup ho
    have he : ids (P ++ (M ++ Q)) = ids P ++ (ids M ++ ids Q) := by simp [ids]
    rw [he] at hn
    have hn1 := List.nodup_cons.1 hn
    rcases headId_uses o Q with q | q
    · rw [q] at hm; exact hn1.1 (by simp only [List.mem_append]; exact Or.inr (Or.inl hm))
    · exact (List.nodup_append.1 (List.nodup_append.1 hn1.2).2.1).2.2 _ hm _ q rfl
  have b1 : h.prevOf (headId Q o) = some (lastId l M) := by
    have := last_prev (P := P ++ M) (Q := Q) r (by simpa using ho)
    rw [this, lastId_append hM]
  have b2 : h.prevOf (headId S l) = some (lastId l R) := by
    rw [← p1 _ hpos]
    exact last_prev r1 hl
  have hh : headId M o = headId M l := by
    cases M with
    | nil => exact absurd rfl hM
    | cons a M => rfl
  unfold LHeap.splice
  rw [if_neg hne, b1, b2]
  simp only [Option.bind_eq_bind, Option.bind_some]
  rw [e1, hh]
  exact e2

theorem RelD.congr {h h' : LHeap V} {A : Abs V} {D} (r : RelD h A D) (sv : SameVals h h')
    (hn : ∀ x, h'.nextOf x = h.nextOf x) (hp : ∀ x, h'.prevOf x = h.prevOf x) : RelD h' A D where
  fresh a ha := by rw [sv.val]; exact r.fresh a (sv.next ▸ ha)
  same := r.same.trans sv.next.symm
  ring hk := inner_congr (r.ring hk) fun x _ => ⟨hn x, hp x⟩
  nodup := r.nodup
  sent hk := by rw [sv.val]; exact r.sent hk
  vals hk hi := by rw [sv.val]; exact r.vals hk hi
  apart := r.apart
  dinner := inner_congr r.dinner fun x _ => ⟨hn x, hp x⟩
  dnodup := r.dnodup
  dvals hi := by rw [sv.val]; exact r.dvals hi
  dapart := r.dapart
  sentOf ha := r.sentOf (by rw [← sv.val]; exact ha)
  nodeOf ha := r.nodeOf (by rw [← sv.val]; exact ha)

theorem getLast?_ids {M : List (Nat × V)} (hM : M ≠ []) (k : Nat) : (ids M).getLast? = some (lastId k M) := by
  have h := lastId_getLast? k M
  have hne : ids M ≠ [] := by simpa [ids] using hM
  rw [List.getLast?_cons, List.getLast?_eq_getLast_of_ne_nil hne] at h
  rw [List.getLast?_eq_getLast_of_ne_nil hne]
  simpa using h

theorem head?_ids {M : List (Nat × V)} (hM : M ≠ []) (k : Nat) : (ids M).head? = some (headId M k) := by
  cases M with
  | nil => exact absurd rfl hM
  | cons a M => rfl

/-- `link_in`: the sentinel `l` takes over the chain `ys` of the sentinel `m`. -/
theorem linkIn_spec {h : LHeap V} {l m : Nat} {ys : List (Nat × V)} (hi : Inner h (ids ys)) (hnd : (ids ys).Nodup)
    (hl : l ∉ ids ys) (hm : m ∉ ids ys) (hlv : h.valOf l ≠ none) (hyv : ∀ a ∈ ids ys, h.valOf a ≠ none)
    (hp : h.prevOf l = some (lastId m ys)) (hn : h.nextOf l = some (headId ys m)) :
    ∃ h', h.linkIn l m = some h' ∧ SameVals h h' ∧ Inner h' (l :: (ids ys ++ [l])) ∧
      (∀ x, x ∉ ids ys → x ≠ l → h'.nextOf x = h.nextOf x) ∧ (∀ x, x ∉ ids ys → x ≠ l → h'.prevOf x = h.prevOf x) := by
  by_cases hY : ys = []
  · subst hY
    obtain ⟨h1, e1, s1, n1, p1⟩ := setPrev_spec (b := l) hlv
    obtain ⟨h2, e2, s2, n2, p2⟩ := setNext_spec (h := h1) (a := l) (b := l) (by rw [s1.val]; exact hlv)
    have hp' : h.prevOf l = some m := hp
    have hn' : h.nextOf l = some m := hn
    refine ⟨h2, ?_, s1.trans s2, ?_, ?_, ?_⟩
    · simp [LHeap.linkIn, hp', hn', e1, e2]
    · show List.IsChain _ [l, l]
      rw [List.isChain_cons_cons]
      refine ⟨⟨?_, ?_⟩, List.IsChain.singleton _⟩
      · rw [n2, if_pos rfl]
      · rw [p2, p1, if_pos rfl]
    · intro x _ hx; rw [n2, if_neg hx, n1]
    · intro x _ hx; rw [p2, p1, if_neg hx]
  · have hla := lastId_mem (k := m) hY
    have hfi := headId_mem (k := m) hY
    have g1 := getLast?_ids hY m
    have g2 := head?_ids hY m
    obtain ⟨h1, e1, s1, n1, p1⟩ := setNext_spec (b := l) (hyv _ hla)
    obtain ⟨h2, e2, s2, n2, p2⟩ := setPrev_spec (h := h1) (a := headId ys m) (b := l) (by rw [s1.val]; exact hyv _ hfi)
    have c1 : lastId m ys ≠ m := fun e => hm (e ▸ hla)
    have c2 : headId ys m ≠ m := fun e => hm (e ▸ hfi)
    have c3 : lastId m ys ≠ l := fun e => hl (e ▸ hla)
    have c4 : headId ys m ≠ l := fun e => hl (e ▸ hfi)
    refine ⟨h2, ?_, s1.trans s2, ?_, ?_, ?_⟩
    · unfold LHeap.linkIn
      rw [hp, hn]
      simp only [Option.bind_eq_bind, Option.bind_some]
      rw [if_neg c1, if_neg c2, e1]
      exact e2
    · have hin : Inner h2 (ids ys ++ [l]) := by
        refine (inner_append g1 (y := l) (by simp)).2 ⟨?_, List.IsChain.singleton _, ?_, ?_⟩
        · refine inner_frame hi ?_ ?_
          · intro x hx
            rw [n2, n1, if_neg]
            rintro rfl
            exact not_mem_dropLast hnd g1 hx
          · intro x hx
            rw [p2, if_neg, p1]
            rintro rfl
            exact not_mem_tail hnd g2 hx
        · rw [n2, n1, if_pos rfl]
        · rw [p2, if_neg (Ne.symm c4), p1, hp]
      have := (ring_split (h := h2) (k := l) (xs := []) (ys := ys)).2 ⟨List.IsChain.singleton _, hin, ?_, ?_⟩
      · simpa using this
      · show h2.nextOf l = some (headId ys l)
        rw [n2, n1, if_neg (Ne.symm c3), hn]
        have := g2.symm.trans (head?_ids hY l)
        exact this
      · show h2.prevOf (headId ys l) = some l
        have : headId ys m = headId ys l := by
          have := g2.symm.trans (head?_ids hY l)
          injection this
        rw [← this, p2, if_pos rfl]
    · intro x hx hxl
      rw [n2, n1, if_neg]
      rintro rfl
      exact hx hla
    · intro x hx hxl
      rw [p2, if_neg, p1]
      rintro rfl
      exact hx hfi

theorem ring_inner {h : LHeap V} {k : Nat} {xs : List (Nat × V)} (hr : Inner h (k :: (ids xs ++ [k]))) : Inner h (ids xs) := by
  have := (ring_split (xs := []) (ys := xs).1 (by simpa using hr)).2.1
  exact (List.isChain_append.1 this).1

theorem ring_first {h : LHeap V} {k : Nat} {xs : List (Nat × V)} (hr : Inner h (k :: (ids xs ++ [k]))) : h.nextOf k = some (headId xs k) := by
  have := (ring_split (xs := []) (ys := xs).1 (by simpa using hr)).2.2.1
  simpa [lastId] using this

theorem ring_last {h : LHeap V} {k : Nat} {xs : List (Nat × V)} (hr : Inner h (k :: (ids xs ++ [k]))) : h.prevOf k = some (lastId k xs) := by
  have := (ring_split (xs := xs) (ys := []).1 (by simpa using hr)).2.2.2
  simpa [headId] using this

/-- `swap` -/
theorem swap_spec {h : LHeap V} {A : Abs V} {l m : Nat} {xs ys : List (Nat × V)} (r : Rel h A)
    (hl : A.lists l = some xs) (hm : A.lists m = some ys) :
    ∃ h', h.swap l m = some h' ∧ Rel h' { A with lists := upd (upd A.lists l (some ys)) m (some xs) } := by
  have hlv : h.valOf l ≠ none := r.usesVal hl (Or.inl rfl)
  have hmv : h.valOf m ≠ none := r.usesVal hm (Or.inl rfl)
  have rl := r.ring hl
  have rm := r.ring hm
  have al := ring_first rl
  have bl := ring_last rl
  have am := ring_first rm
  have bm := ring_last rm
  obtain ⟨h1, e1, s1, n1, p1⟩ := setPrev_spec (b := lastId m ys) hlv
  obtain ⟨h2, e2, s2, n2, p2⟩ := setPrev_spec (h := h1) (a := m) (b := lastId l xs) (by rw [s1.val]; exact hmv)
  have s12 := s1.trans s2
  obtain ⟨h3, e3, s3, n3, p3⟩ := setNext_spec (h := h2) (a := l) (b := headId ys m) (by rw [s12.val]; exact hlv)
  have s13 := s12.trans s3
  obtain ⟨h4, e4, s4, n4, p4⟩ := setNext_spec (h := h3) (a := m) (b := headId xs l) (by rw [s13.val]; exact hmv)
  have s14 := s13.trans s4
  have nn : ∀ x, h4.nextOf x = if x = m then some (headId xs l) else if x = l then some (headId ys m) else h.nextOf x := by
    intro x; rw [n4, n3, n2, n1]
  have pp : ∀ x, h4.prevOf x = if x = m then some (lastId l xs) else if x = l then some (lastId m ys) else h.prevOf x := by
    intro x; rw [p4, p3, p2, p1]
  have hstart : h.swap l m = (h4.linkIn l m).bind fun h => h.linkIn m l := by
    unfold LHeap.swap
    rw [bl, bm]
    simp only [Option.bind_eq_bind, Option.bind_some]
    rw [e1]
    simp only [Option.bind_some]
    rw [e2]
    simp only [Option.bind_some]
    rw [n2, n1, al, n2, n1, am]
    simp only [Option.bind_some]
    rw [e3]
    simp only [Option.bind_some]
    rw [e4]
    rfl
  by_cases hlm : l = m
  · subst hlm
    rw [hl] at hm
    injection hm with hm
    subst hm
    have same4 : (∀ x, h4.nextOf x = h.nextOf x) ∧ (∀ x, h4.prevOf x = h.prevOf x) := by
      refine ⟨fun x => ?_, fun x => ?_⟩
      · rw [nn]; by_cases hx : x = l
        · rw [if_pos hx, hx, al]
        · rw [if_neg hx, if_neg hx]
      · rw [pp]; by_cases hx : x = l
        · rw [if_pos hx, hx, bl]
        · rw [if_neg hx, if_neg hx]
    -- linking in twice changes nothing
    have key : ∀ g : LHeap V, Rel g A → ∃ g', g.linkIn l l = some g' ∧ Rel g' A := by
      intro g rg
      have gl := rg.ring hl
      have hnx : l ∉ ids xs := fun q => rg.sentNe hl hl q rfl
      obtain ⟨g', e, sg, ig, fn, fp⟩ := linkIn_spec (ring_inner gl) (rg.nodup hl) hnx hnx (rg.usesVal hl (Or.inl rfl))
        (fun a ha => rg.usesVal hl (Or.inr ha)) (ring_last gl) (ring_first gl)
      refine ⟨g', e, ?_⟩
      constructor
      case fresh => intro a ha; rw [sg.val]; exact rg.fresh a (sg.next ▸ ha)
      case same => exact rg.same.trans sg.next.symm
      case ring =>
        intro k zs hk
        by_cases hkl : k = l
        · subst hkl; rw [hl] at hk; injection hk with hk; subst hk; exact ig
        · refine inner_congr (rg.ring hk) fun x hx => ?_
          have hux := rg.usesApart hk hl (Ne.symm hkl) (ring_uses hx)
          exact ⟨fn x (fun q => hux (Or.inr q)) (fun q => hux (Or.inl q)), fp x (fun q => hux (Or.inr q)) (fun q => hux (Or.inl q))⟩
      case nodup => exact rg.nodup
      case sent => intro k zs hk; rw [sg.val]; exact rg.sent hk
      case vals => intro k zs i v hk hi; rw [sg.val]; exact rg.vals hk hi
      case apart => exact rg.apart
      case dinner => exact List.IsChain.nil
      case dnodup => exact List.nodup_nil
      case dvals => intro i v hi; cases hi
      case dapart => intro k xs i _ _ hd; cases hd
      case sentOf => intro a ha; exact rg.sentOf (by rw [← sg.val]; exact ha)
      case nodeOf => intro a v ha; exact rg.nodeOf (by rw [← sg.val]; exact ha)
    obtain ⟨h5, e5, r5⟩ := key h4 (r.congr s14 same4.1 same4.2)
    obtain ⟨h6, e6, r6⟩ := key h5 r5
    refine ⟨h6, ?_, ?_⟩
    · rw [hstart, e5]; exact e6
    · rw [upd_upd, upd_self hl]; exact r6
  · have hml : m ≠ l := Ne.symm hlm
    have lx : l ∉ ids xs := fun q => r.sentNe hl hl q rfl
    have ly : l ∉ ids ys := fun q => r.sentNe hm hl q rfl
    have mx : m ∉ ids xs := fun q => r.sentNe hl hm q rfl
    have my : m ∉ ids ys := fun q => r.sentNe hm hm q rfl
    have hxy : ∀ a ∈ ids xs, a ∉ ids ys := fun a ha hb => hlm (r.apart hl hm ha hb)
    have frame4 : ∀ x, x ≠ l → x ≠ m → h4.nextOf x = h.nextOf x ∧ h4.prevOf x = h.prevOf x := by
      intro x q w; exact ⟨by rw [nn, if_neg w, if_neg q], by rw [pp, if_neg w, if_neg q]⟩
    have ix4 : Inner h4 (ids xs) := inner_congr (ring_inner rl) fun x hx => frame4 x (fun e => lx (e ▸ hx)) (fun e => mx (e ▸ hx))
    have iy4 : Inner h4 (ids ys) := inner_congr (ring_inner rm) fun x hx => frame4 x (fun e => ly (e ▸ hx)) (fun e => my (e ▸ hx))
    obtain ⟨h5, e5, s5, i5, fn5, fp5⟩ := linkIn_spec iy4 (r.nodup hm) ly my (by rw [s14.val]; exact hlv)
      (fun a ha => by rw [s14.val]; exact r.usesVal hm (Or.inr ha)) (by rw [pp, if_neg hlm, if_pos rfl]) (by rw [nn, if_neg hlm, if_pos rfl])
    have s15 := s14.trans s5
    have ix5 : Inner h5 (ids xs) := inner_congr ix4 fun x hx =>
      ⟨fn5 x (hxy x hx) (fun e => lx (e ▸ hx)), fp5 x (hxy x hx) (fun e => lx (e ▸ hx))⟩
    obtain ⟨h6, e6, s6, i6, fn6, fp6⟩ := linkIn_spec ix5 (r.nodup hl) mx lx (by rw [s15.val]; exact hmv)
      (fun a ha => by rw [s15.val]; exact r.usesVal hl (Or.inr ha)) (by rw [fp5 m my hml, pp, if_pos rfl]) (by rw [fn5 m my hml, nn, if_pos rfl])
    have sv := s15.trans s6
    refine ⟨h6, by rw [hstart, e5]; exact e6, ?_⟩
    have key : ∀ {k zs}, (upd (upd A.lists l (some ys)) m (some xs)) k = some zs →
        (k = l ∧ zs = ys) ∨ (k = m ∧ zs = xs) ∨ (k ≠ l ∧ k ≠ m ∧ A.lists k = some zs) := by
      intro k zs hk
      by_cases hkm : k = m
      · subst hkm; simp at hk; exact Or.inr (Or.inl ⟨rfl, hk.symm⟩)
      · rw [upd_other _ _ hkm] at hk
        by_cases hkl : k = l
        · subst hkl; simp at hk; exact Or.inl ⟨rfl, hk.symm⟩
        · rw [upd_other _ _ hkl] at hk; exact Or.inr (Or.inr ⟨hkl, hkm, hk⟩)
    constructor
    case fresh => intro a ha; rw [sv.val]; exact r.fresh a (sv.next ▸ ha)
    case same => exact r.same.trans sv.next.symm
    case ring =>
      intro k zs hk
      rcases key hk with ⟨rfl, rfl⟩ | ⟨rfl, rfl⟩ | ⟨hkl, hkm, hk⟩
      · refine inner_congr i5 fun x hx => ?_
        have hx' := ring_uses hx
        have c1 : x ∉ ids xs := by
          rcases hx' with q | q
          · rw [q]; exact lx
          · exact fun w => hxy x w q
        have c2 : x ≠ m := by
          rcases hx' with q | q
          · rw [q]; exact hlm
          · exact fun e => my (e ▸ q)
        exact ⟨fn6 x c1 c2, fp6 x c1 c2⟩
      · exact i6
      · refine inner_congr (r.ring hk) fun x hx => ?_
        have u1 := r.usesApart hk hl (Ne.symm hkl) (ring_uses hx)
        have u2 := r.usesApart hk hm (Ne.symm hkm) (ring_uses hx)
        have a1 : x ≠ l := fun q => u1 (Or.inl q)
        have a2 : x ≠ m := fun q => u2 (Or.inl q)
        have a3 : x ∉ ids xs := fun q => u1 (Or.inr q)
        have a4 : x ∉ ids ys := fun q => u2 (Or.inr q)
        exact ⟨by rw [fn6 x a3 a2, fn5 x a4 a1]; exact (frame4 x a1 a2).1, by rw [fp6 x a3 a2, fp5 x a4 a1]; exact (frame4 x a1 a2).2⟩
    case nodup =>
      intro k zs hk
      rcases key hk with ⟨rfl, rfl⟩ | ⟨rfl, rfl⟩ | ⟨hkl, hkm, hk⟩
      · exact r.nodup hm
      · exact r.nodup hl
      · exact r.nodup hk
    case sent =>
      intro k zs hk
      rw [sv.val]
      rcases key hk with ⟨rfl, rfl⟩ | ⟨rfl, rfl⟩ | ⟨hkl, hkm, hk⟩
      · exact r.sent hl
      · exact r.sent hm
      · exact r.sent hk
    case vals =>
      intro k zs i v hk hi
      rw [sv.val]
      rcases key hk with ⟨rfl, rfl⟩ | ⟨rfl, rfl⟩ | ⟨hkl, hkm, hk⟩
      · exact r.vals hm hi
      · exact r.vals hl hi
      · exact r.vals hk hi
    case apart =>
      intro k k' zs ws i hk hk' hi hi'
      have kk := key hk
      have kk' := key hk'
      clear hk hk'
      rcases kk with ⟨rfl, rfl⟩ | ⟨rfl, rfl⟩ | ⟨hkl, hkm, hk⟩ <;>
        rcases kk' with ⟨rfl, rfl⟩ | ⟨rfl, rfl⟩ | ⟨hkl', hkm', hk'⟩
      · rfl
      · exact absurd hi (hxy i hi')
      · exact absurd (r.apart hk' hm hi' hi) hkm'
      · exact absurd hi' (hxy i hi)
      · rfl
      · exact absurd (r.apart hk' hl hi' hi) hkl'
      · exact absurd (r.apart hk hm hi hi') hkm
      · exact absurd (r.apart hk hl hi hi') hkl
      · exact r.apart hk hk' hi hi'
    case dinner => exact List.IsChain.nil
    case dnodup => exact List.nodup_nil
    case dvals => intro i v hi; cases hi
    case dapart => intro k xs i _ _ hd; cases hd
    case sentOf =>
      intro a ha
      rw [sv.val] at ha
      obtain ⟨zs, hz⟩ := r.sentOf ha
      by_cases ham : a = m
      · exact ⟨xs, by rw [ham]; simp⟩
      · by_cases hal : a = l
        · exact ⟨ys, by simp only [upd_other _ _ ham]; rw [hal]; simp⟩
        · exact ⟨zs, by simp only [upd_other _ _ ham, upd_other _ _ hal]; exact hz⟩
    case nodeOf =>
      intro a v ha
      rw [sv.val] at ha
      rcases r.nodeOf ha with ⟨k, zs, hk, hz⟩ | q
      · by_cases hkm : k = m
        · subst hkm
          rw [hm] at hk
          injection hk with hk
          exact Or.inl ⟨l, ys, by simp only [upd_other _ _ hlm, upd_same], hk ▸ hz⟩
        · by_cases hkl : k = l
          · subst hkl
            rw [hl] at hk
            injection hk with hk
            exact Or.inl ⟨m, xs, by simp only [upd_same], hk ▸ hz⟩
          · exact Or.inl ⟨k, zs, by simp only [upd_other _ _ hkm, upd_other _ _ hkl]; exact hk, hz⟩
      · cases q

/-! ## What a user sees -/

theorem walkNext_spec {h : LHeap V} {k : Nat} : ∀ {xs : List (Nat × V)} {n : Nat}, Inner h (ids xs ++ [k]) →
    (∀ i v, (i, v) ∈ xs → h.valOf i = some (some v)) → k ∉ ids xs → xs.length < n →
    LHeap.walkNext n h (headId xs k) k = some (xs.map (·.2)) := by
  intro xs
  induction xs with
  | nil =>
    intro n _ _ _ hn
    cases n with
    | zero => simp at hn
    | succ n => simp [LHeap.walkNext, headId]
  | cons x xs ih =>
    intro n hi hv hk hn
    cases n with
    | zero => simp at hn
    | succ n =>
      have hval := hv x.1 x.2 (by simp)
      obtain ⟨p, nx, hc⟩ := cell_of_val hval
      have hne : x.1 ≠ k := fun e => hk (by simp [ids, e])
      have hi' : Inner h ([x.1] ++ (ids xs ++ [k])) := by simpa [ids] using hi
      obtain ⟨_, i2, i3⟩ := (inner_append (x := x.1) (by simp) (headId_head? k xs)).1 hi'
      have hnx : nx = headId xs k := by
        have := i3.1
        simp [LHeap.nextOf, hc] at this
        simpa [headId, ids] using this
      have := ih (n := n) i2 (fun i v hm => hv i v (by simp [hm])) (fun q => hk (by simp [ids] at q ⊢; exact Or.inr q)) (by simp at hn; omega)
      show LHeap.walkNext (n + 1) h x.1 k = _
      rw [LHeap.walkNext, if_neg hne, hc]
      simp only
      rw [hnx, this]
      rfl

theorem forward_spec {h : LHeap V} {A : Abs V} {l : Nat} {xs : List (Nat × V)} (r : Rel h A) (hl : A.lists l = some xs) :
    h.forward l = some (xs.map (·.2)) := by
  have hr := r.ring hl
  unfold LHeap.forward
  rw [ring_first hr]
  simp only [Option.bind_eq_bind, Option.bind_some]
  refine walkNext_spec ?_ (fun i v hm => r.vals hl hm) (fun q => r.sentNe hl hl q rfl) (Nat.lt_succ_of_le (r.length_le hl))
  exact (ring_split (xs := []) (ys := xs).1 (by simpa using hr)).2.1

theorem walkPrev_spec {h : LHeap V} {k last : Nat} : ∀ {xs : List (Nat × V)} {n : Nat}, Inner h (ids xs ++ [k]) →
    (∀ i v, (i, v) ∈ xs → h.valOf i = some (some v)) → (ids xs).Nodup → k ∉ ids xs → last = headId xs k → xs.length < n →
    LHeap.walkPrev n h k last = some ((xs.map (·.2)).reverse) := by
  intro xs
  induction xs using List.reverseRecOn generalizing k with
  | nil =>
    intro n _ _ _ _ hlast hn
    cases n with
    | zero => simp at hn
    | succ n => simp [LHeap.walkPrev, headId, hlast]
  | append_singleton xs x ih =>
    intro n hi hv hnd hk hlast hn
    cases n with
    | zero => simp at hn
    | succ n =>
      have hval := hv x.1 x.2 (by simp)
      obtain ⟨p, nx, hc⟩ := cell_of_val hval
      have he : ids (xs ++ [x]) = ids xs ++ [x.1] := by simp [ids]
      rw [he] at hi hnd hk
      have hne : k ≠ last := by
        rw [hlast]
        intro e
        have := headId_mem (k := k) (M := xs ++ [x]) (by simp)
        rw [← e, he] at this
        exact hk this
      obtain ⟨i1, _, i3⟩ := (inner_append (x := x.1) (y := k) (by simp) (by simp)).1 hi
      have hnd' := List.nodup_append.1 hnd
      have hh : last = headId xs x.1 := by
        rw [hlast]
        cases xs <;> simp [headId, ids]
      have := ih (k := x.1) (n := n) i1 (fun i v hm => hv i v (by simp [hm])) hnd'.1
        (fun q => hnd'.2.2 _ q _ (by simp) rfl) hh (by simp at hn; omega)
      rw [LHeap.walkPrev, if_neg hne, i3.2]
      simp only
      rw [hc]
      simp only
      rw [this]
      simp

theorem backward_spec {h : LHeap V} {A : Abs V} {l : Nat} {xs : List (Nat × V)} (r : Rel h A) (hl : A.lists l = some xs) :
    h.backward l = some ((xs.map (·.2)).reverse) := by
  have hr := r.ring hl
  unfold LHeap.backward
  rw [ring_first hr]
  simp only [Option.bind_eq_bind, Option.bind_some]
  refine walkPrev_spec ?_ (fun i v hm => r.vals hl hm) (r.nodup hl) (fun q => r.sentNe hl hl q rfl) rfl (Nat.lt_succ_of_le (r.length_le hl))
  exact (ring_split (xs := []) (ys := xs).1 (by simpa using hr)).2.1

end Verif.Lists
