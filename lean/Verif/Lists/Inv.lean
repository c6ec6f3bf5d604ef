import Verif.Lists.Heap

/-!
# The invariant of doubly linked lists and the primitive operations

`RelD h A D`: the memory `h` holds exactly the lists of `A`, each a circular chain in both
directions, and the detached chain `D` (nodes unlinked from one list and not yet linked
into another, or a node that was just made).
-/

namespace Verif.Lists

variable {V : Type}

/-- The abstract state: for every list its sequence of nodes, a node being an identity (the
iterator that refers to it) and a value; and the next unused identity. -/
structure Abs (V : Type) where
  lists : Nat → Option (List (Nat × V))
  next : Nat

/-- The identities of the nodes of a sequence. -/
abbrev ids (xs : List (Nat × V)) : List Nat := xs.map (·.1)

/-- See the module comment. -/
structure RelD (h : LHeap V) (A : Abs V) (D : List (Nat × V)) : Prop where
  fresh : ∀ a, h.next ≤ a → h.valOf a = none
  same : A.next = h.next
  ring : ∀ {k xs}, A.lists k = some xs → Inner h (k :: (ids xs ++ [k]))
  nodup : ∀ {k xs}, A.lists k = some xs → (ids xs).Nodup
  sent : ∀ {k xs}, A.lists k = some xs → h.valOf k = some none
  vals : ∀ {k xs i v}, A.lists k = some xs → (i, v) ∈ xs → h.valOf i = some (some v)
  apart : ∀ {k k' xs ys i}, A.lists k = some xs → A.lists k' = some ys → i ∈ ids xs → i ∈ ids ys → k = k'
  dinner : Inner h (ids D)
  dnodup : (ids D).Nodup
  dvals : ∀ {i v}, (i, v) ∈ D → h.valOf i = some (some v)
  dapart : ∀ {k xs i}, A.lists k = some xs → i ∈ ids xs → i ∉ ids D
  sentOf : ∀ {a}, h.valOf a = some none → ∃ xs, A.lists a = some xs
  nodeOf : ∀ {a v}, h.valOf a = some (some v) → (∃ k xs, A.lists k = some xs ∧ (a, v) ∈ xs) ∨ (a, v) ∈ D

/-- The memory holds exactly the lists of `A`. -/
abbrev Rel (h : LHeap V) (A : Abs V) : Prop := RelD h A []

theorem mem_ids {xs : List (Nat × V)} {i : Nat} : i ∈ ids xs ↔ ∃ v, (i, v) ∈ xs := by
  simp [ids]

namespace RelD

variable {h : LHeap V} {A : Abs V} {D : List (Nat × V)}

theorem idVal (r : RelD h A D) {k xs i} (hk : A.lists k = some xs) (hi : i ∈ ids xs) : ∃ v, h.valOf i = some (some v) := by
  obtain ⟨v, hv⟩ := mem_ids.1 hi
  exact ⟨v, r.vals hk hv⟩

theorem dIdVal (r : RelD h A D) {i} (hi : i ∈ ids D) : ∃ v, h.valOf i = some (some v) := by
  obtain ⟨v, hv⟩ := mem_ids.1 hi
  exact ⟨v, r.dvals hv⟩

/-- A sentinel is not a node. -/
theorem sentNe (r : RelD h A D) {k ys l xs i} (hl : A.lists l = some xs) (hk : A.lists k = some ys) (hi : i ∈ ids xs) : i ≠ k := by
  rintro rfl
  obtain ⟨v, hv⟩ := r.idVal hl hi
  rw [r.sent hk] at hv
  cases hv

theorem dSentNe (r : RelD h A D) {k ys i} (hk : A.lists k = some ys) (hi : i ∈ ids D) : i ≠ k := by
  rintro rfl
  obtain ⟨v, hv⟩ := r.dIdVal hi
  rw [r.sent hk] at hv
  cases hv

/-- An address used by a list. -/
abbrev Uses (k : Nat) (xs : List (Nat × V)) (a : Nat) : Prop := a = k ∨ a ∈ ids xs

theorem usesApart (r : RelD h A D) {k ys l xs a} (hl : A.lists l = some xs) (hk : A.lists k = some ys) (hne : k ≠ l)
    (ha : Uses l xs a) : ¬ Uses k ys a := by
  rcases ha with rfl | ha
  · rintro (rfl | hb)
    · exact hne rfl
    · exact r.sentNe hk hl hb rfl
  · rintro (rfl | hb)
    · exact r.sentNe hl hk ha rfl
    · exact hne (r.apart hk hl hb ha)

theorem dUsesApart (r : RelD h A D) {k ys a} (hk : A.lists k = some ys) (ha : a ∈ ids D) : ¬ Uses k ys a := by
  rintro (rfl | hb)
  · exact r.dSentNe hk ha rfl
  · exact r.dapart hk hb ha

theorem usesVal (r : RelD h A D) {k ys a} (hk : A.lists k = some ys) (ha : Uses k ys a) : h.valOf a ≠ none := by
  rcases ha with rfl | ha
  · rw [r.sent hk]; simp
  · obtain ⟨v, hv⟩ := r.idVal hk ha
    rw [hv]; simp

theorem lt (r : RelD h A D) {a} (ha : h.valOf a ≠ none) : a < h.next := by
  by_contra hc
  exact ha (r.fresh a (Nat.le_of_not_lt hc))

end RelD

theorem uses_append {k : Nat} {xs ys : List (Nat × V)} {a : Nat} :
    RelD.Uses k (xs ++ ys) a ↔ RelD.Uses k xs a ∨ a ∈ ids ys := by
  simp [RelD.Uses, ids, or_assoc]

/-- The last address before a position, the sentinel if there is none. -/
abbrev lastId (k : Nat) (xs : List (Nat × V)) : Nat := (ids xs).getLastD k
/-- The first address from a position on, the sentinel if there is none. -/
abbrev headId (xs : List (Nat × V)) (k : Nat) : Nat := (ids xs).headD k

theorem lastId_getLast? (k : Nat) (xs : List (Nat × V)) : (k :: ids xs).getLast? = some (lastId k xs) := by
  rw [List.getLast?_cons]; simp [lastId, List.getLastD_eq_getLast?]

theorem headId_head? (k : Nat) (xs : List (Nat × V)) : (ids xs ++ [k]).head? = some (headId xs k) := by
  cases xs <;> simp [headId]

theorem lastId_uses (k : Nat) (xs : List (Nat × V)) : RelD.Uses k xs (lastId k xs) := by
  have h := List.mem_of_getLast? (lastId_getLast? k xs)
  simpa [RelD.Uses] using h

theorem headId_uses (k : Nat) (xs : List (Nat × V)) : RelD.Uses k xs (headId xs k) := by
  have h := List.mem_of_head? (headId_head? k xs)
  rcases List.mem_append.1 h with h | h
  · exact Or.inr h
  · exact Or.inl (List.mem_singleton.1 h)

/-- A ring cut at a position. -/
theorem ring_split {h : LHeap V} {k : Nat} {xs ys : List (Nat × V)} :
    Inner h (k :: (ids (xs ++ ys) ++ [k])) ↔
      Inner h (k :: ids xs) ∧ Inner h (ids ys ++ [k]) ∧ Linked h (lastId k xs) (headId ys k) := by
  rw [← inner_append (lastId_getLast? k xs) (headId_head? k ys)]
  simp [ids]

/-- In a list without duplicates the last element is not among the others. -/
theorem not_mem_dropLast {l : List Nat} (hn : l.Nodup) {x : Nat} (hx : l.getLast? = some x) : x ∉ l.dropLast := by
  have hne : l ≠ [] := by rintro rfl; simp at hx
  have h1 := List.dropLast_append_getLast hne
  rw [List.getLast?_eq_getLast_of_ne_nil hne] at hx
  injection hx with hx
  rw [hx] at h1
  rw [← h1, List.nodup_append] at hn
  intro hm
  exact hn.2.2 x hm x (by simp) rfl

/-- In a list without duplicates the first element is not among the others. -/
theorem not_mem_tail {l : List Nat} (hn : l.Nodup) {x : Nat} (hx : l.head? = some x) : x ∉ l.tail := by
  cases l with
  | nil => simp at hx
  | cons a l =>
    simp at hx
    subst hx
    exact (List.nodup_cons.1 hn).1

theorem mem_dropLast {l : List Nat} {x : Nat} (h : x ∈ l.dropLast) : x ∈ l := List.dropLast_subset l h
theorem mem_tail {l : List Nat} {x : Nat} (h : x ∈ l.tail) : x ∈ l := List.mem_of_mem_tail h

theorem RelD.consNodup {h : LHeap V} {A : Abs V} {D} (r : RelD h A D) {k xs} (hk : A.lists k = some xs) : (k :: ids xs).Nodup :=
  List.nodup_cons.2 ⟨fun hm => r.sentNe hk hk hm rfl, r.nodup hk⟩

theorem headId_append {M Q : List (Nat × V)} {k : Nat} (hM : M ≠ []) : headId (M ++ Q) k = headId M k := by
  cases M with
  | nil => exact absurd rfl hM
  | cons a M => rfl

theorem headId_mem {M : List (Nat × V)} {k : Nat} (hM : M ≠ []) : headId M k ∈ ids M := by
  cases M with
  | nil => exact absurd rfl hM
  | cons a M => simp [headId, ids]

theorem lastId_mem {M : List (Nat × V)} {k : Nat} (hM : M ≠ []) : lastId k M ∈ ids M := by
  have h := lastId_getLast? k M
  rw [List.getLast?_cons] at h
  have hne : ids M ≠ [] := by simpa [ids] using hM
  rw [List.getLast?_eq_getLast_of_ne_nil hne] at h
  simp only [Option.getD_some, Option.some.injEq] at h
  rw [← h]
  exact List.getLast_mem hne

theorem lastId_append {P M : List (Nat × V)} {k k' : Nat} (hM : M ≠ []) : lastId k (P ++ M) = lastId k' M := by
  have hne : ids M ≠ [] := by simpa [ids] using hM
  have h1 : ids (P ++ M) = ids P ++ ids M := by simp [ids]
  simp only [lastId, List.getLastD_eq_getLast?, h1, List.getLast?_append, List.getLast?_eq_getLast_of_ne_nil hne,
    Option.some_or, Option.getD_some]

/-- Taking a range out of a list leaves the rest as a ring, and the range as a detached
chain. -/
theorem unlink_spec {h : LHeap V} {A : Abs V} (r : Rel h A) {o : Nat} {P M Q : List (Nat × V)}
    (ho : A.lists o = some (P ++ (M ++ Q))) (hM : M ≠ []) :
    ∃ h', h.unlinkRange (headId M o) (headId Q o) = some h' ∧
      RelD h' { A with lists := upd A.lists o (some (P ++ Q)) } M ∧
      (∀ x, x ≠ headId Q o → h'.prevOf x = h.prevOf x) ∧ (∀ x, h'.valOf x = h.valOf x) := by
  have hring := r.ring ho
  have hnd := r.consNodup ho
  obtain ⟨i1, i2, i3⟩ := ring_split.1 hring
  rw [headId_append hM] at i3
  have i2' : Inner h (ids M ++ (ids Q ++ [o])) := by simpa [ids] using i2
  have i4 := (List.isChain_append.1 i2')
  have hidsEq : ids (P ++ (M ++ Q)) = ids P ++ (ids M ++ ids Q) := by simp [ids]
  rw [hidsEq] at hnd
  have hndc := List.nodup_cons.1 hnd
  have hnd2 := List.nodup_append.1 hndc.2
  have hnd3 := List.nodup_append.1 hnd2.2.1
  have ho_P : o ∉ ids P := fun q => hndc.1 (by simp [q])
  have ho_M : o ∉ ids M := fun q => hndc.1 (by simp [q])
  have ho_Q : o ∉ ids Q := fun q => hndc.1 (by simp [q])
  have hPM : ∀ a ∈ ids P, a ∉ ids M := fun a ha hb => hnd2.2.2 a ha a (by simp [hb]) rfl
  have hPQ : ∀ a ∈ ids P, a ∉ ids Q := fun a ha hb => hnd2.2.2 a ha a (by simp [hb]) rfl
  have hMQ : ∀ a ∈ ids M, a ∉ ids Q := fun a ha hb => hnd3.2.2 a ha a hb rfl
  have hbU := lastId_uses o P
  have hlU := headId_uses o Q
  have hbO : RelD.Uses o (P ++ (M ++ Q)) (lastId o P) := by
    rcases hbU with q | q
    · exact Or.inl q
    · exact Or.inr (by rw [hidsEq]; simp only [List.mem_append]; exact Or.inl q)
  have hlO : RelD.Uses o (P ++ (M ++ Q)) (headId Q o) := by
    rcases hlU with q | q
    · exact Or.inl q
    · exact Or.inr (by rw [hidsEq]; simp only [List.mem_append]; exact Or.inr (Or.inr q))
  obtain ⟨h1, e1, s1, n1, p1⟩ := setNext_spec (b := headId Q o) (r.usesVal ho hbO)
  obtain ⟨h2, e2, s2, n2, p2⟩ := setPrev_spec (h := h1) (a := headId Q o) (b := lastId o P)
    (by rw [s1.val]; exact r.usesVal ho hlO)
  have sv := s1.trans s2
  have hbM : lastId o P ∉ ids M := by
    rcases hbU with q | q
    · rw [q]; exact ho_M
    · exact hPM _ q
  have hbQ : lastId o P ∉ ids Q := by
    rcases hbU with q | q
    · rw [q]; exact ho_Q
    · exact hPQ _ q
  have hlP : headId Q o ∉ ids P := by
    rcases hlU with q | q
    · rw [q]; exact ho_P
    · exact fun w => hPQ _ w q
  have hlM : headId Q o ∉ ids M := by
    rcases hlU with q | q
    · rw [q]; exact ho_M
    · exact fun w => hMQ _ w q
  refine ⟨h2, ?_, ?_, ?_, sv.val⟩
  · unfold LHeap.unlinkRange
    rw [i3.2]
    simp only [Option.bind_eq_bind, Option.bind_some]
    rw [e1]
    exact e2
  · constructor
    case fresh => intro a ha; rw [sv.val]; exact r.fresh a (by rw [← sv.next]; exact ha)
    case same => simp only [sv.next]; exact r.same
    case ring =>
      intro k xs hk
      by_cases hko : k = o
      · subst hko
        simp only [upd_same, Option.some.injEq] at hk
        subst hk
        refine ring_split.2 ⟨?_, ?_, ?_⟩
        · refine inner_frame i1 ?_ ?_
          · intro x hx
            rw [n2, n1, if_neg]
            rintro rfl
            exact not_mem_dropLast (List.nodup_cons.2 ⟨ho_P, hnd2.1⟩) (lastId_getLast? k P) hx
          · intro x hx
            rw [p2, if_neg, p1]
            rintro rfl
            exact hlP (by simpa using hx)
        · refine inner_frame i4.2.1 ?_ ?_
          · intro x hx
            rw [n2, n1, if_neg]
            rintro rfl
            exact hbQ (by simpa using hx)
          · intro x hx
            rw [p2, if_neg, p1]
            rintro rfl
            refine not_mem_tail ?_ (headId_head? k Q) hx
            exact List.nodup_append.2 ⟨hnd3.2.1, List.nodup_singleton k, by
              intro a ha b hb e; rw [List.mem_singleton.1 hb] at e; exact ho_Q (e ▸ ha)⟩
        · refine ⟨?_, ?_⟩
          · rw [n2, n1, if_pos rfl]
          · rw [p2, if_pos rfl]
      · simp only [upd_other _ _ hko] at hk
        have hu : ∀ x, x ∈ k :: (ids xs ++ [k]) → RelD.Uses k xs x := by
          intro x hx; simp only [List.mem_cons, List.mem_append, List.not_mem_nil, or_false] at hx
          rcases hx with q | q | q
          · exact Or.inl q
          · exact Or.inr q
          · exact Or.inl q
        refine inner_frame (r.ring hk) ?_ ?_
        · intro x hx
          rw [n2, n1, if_neg]
          rintro rfl
          exact r.usesApart ho hk hko hbO (hu _ (mem_dropLast hx))
        · intro x hx
          rw [p2, if_neg, p1]
          rintro rfl
          exact r.usesApart ho hk hko hlO (hu _ (mem_tail hx))
    case nodup =>
      intro k xs hk
      by_cases hko : k = o
      · subst hko
        simp only [upd_same, Option.some.injEq] at hk
        subst hk
        have he : ids (P ++ Q) = ids P ++ ids Q := by simp [ids]
        rw [he]
        exact List.nodup_append.2 ⟨hnd2.1, hnd3.2.1, fun a ha b hb e => hPQ a ha (e ▸ hb)⟩
      · simp only [upd_other _ _ hko] at hk
        exact r.nodup hk
    case sent =>
      intro k xs hk
      rw [sv.val]
      by_cases hko : k = o
      · subst hko; exact r.sent ho
      · simp only [upd_other _ _ hko] at hk; exact r.sent hk
    case vals =>
      intro k xs i v hk hi
      rw [sv.val]
      by_cases hko : k = o
      · subst hko
        simp only [upd_same, Option.some.injEq] at hk
        subst hk
        refine r.vals ho ?_
        simp only [List.mem_append] at hi ⊢
        rcases hi with q | q
        · exact Or.inl q
        · exact Or.inr (Or.inr q)
      · simp only [upd_other _ _ hko] at hk; exact r.vals hk hi
    case apart =>
      have key : ∀ k xs, (upd A.lists o (some (P ++ Q))) k = some xs → ∃ ys, A.lists k = some ys ∧ ∀ i ∈ ids xs, i ∈ ids ys := by
        intro k xs hk
        by_cases hko : k = o
        · subst hko
          simp only [upd_same, Option.some.injEq] at hk
          subst hk
          refine ⟨_, ho, fun i hi => ?_⟩
          simp only [ids, List.map_append, List.mem_append] at hi ⊢
          rcases hi with q | q
          · exact Or.inl q
          · exact Or.inr (Or.inr q)
        · rw [upd_other _ _ hko] at hk
          exact ⟨xs, hk, fun i hi => hi⟩
      intro k k' xs ys i hk hk' hi hi'
      obtain ⟨xs', a1, a2⟩ := key k xs hk
      obtain ⟨ys', b1, b2⟩ := key k' ys hk'
      exact r.apart a1 b1 (a2 i hi) (b2 i hi')
    case dinner =>
      refine inner_frame i4.1 ?_ ?_
      · intro x hx
        rw [n2, n1, if_neg]
        rintro rfl
        exact hbM (mem_dropLast hx)
      · intro x hx
        rw [p2, if_neg, p1]
        rintro rfl
        exact hlM (mem_tail hx)
    case dnodup => exact hnd3.1
    case dvals =>
      intro i v hi
      rw [sv.val]
      exact r.vals ho (by simp [hi])
    case dapart =>
      intro k xs i hk hi hd
      by_cases hko : k = o
      · subst hko
        simp only [upd_same, Option.some.injEq] at hk
        subst hk
        simp only [ids, List.map_append, List.mem_append] at hi
        rcases hi with q | q
        · exact hPM i q hd
        · exact hMQ i hd q
      · simp only [upd_other _ _ hko] at hk
        exact hko (r.apart hk ho hi (by rw [hidsEq]; simp only [List.mem_append]; exact Or.inr (Or.inl hd)))
    case sentOf =>
      intro a ha
      rw [sv.val] at ha
      obtain ⟨xs, hx⟩ := r.sentOf ha
      by_cases hao : a = o
      · subst hao; exact ⟨P ++ Q, by simp⟩
      · exact ⟨xs, by simp only [upd_other _ _ hao]; exact hx⟩
    case nodeOf =>
      intro a v ha
      rw [sv.val] at ha
      rcases r.nodeOf ha with ⟨k, xs, hk, hm⟩ | hm
      · by_cases hko : k = o
        · subst hko
          rw [ho] at hk
          injection hk with hk
          subst hk
          simp only [List.mem_append] at hm
          rcases hm with q | q | q
          · exact Or.inl ⟨k, P ++ Q, by simp, by simp [q]⟩
          · exact Or.inr q
          · exact Or.inl ⟨k, P ++ Q, by simp, by simp [q]⟩
        · exact Or.inl ⟨k, xs, by simp only [upd_other _ _ hko]; exact hk, hm⟩
      · cases hm
  · intro x hx
    rw [p2, if_neg hx, p1]

/-- Linking a detached chain into a list. -/
theorem link_spec {h : LHeap V} {A : Abs V} {l : Nat} {P M Q : List (Nat × V)} (r : RelD h A M)
    (hl : A.lists l = some (P ++ Q)) (hM : M ≠ []) :
    ∃ h', h.linkRange (lastId l P) (headId M l) (lastId l M) (headId Q l) = some h' ∧
      Rel h' { A with lists := upd A.lists l (some (P ++ (M ++ Q))) } ∧ (∀ x, h'.valOf x = h.valOf x) := by
  have hring := r.ring hl
  have hnd := r.consNodup hl
  obtain ⟨i1, i2, i3⟩ := ring_split.1 hring
  have hidsEq : ids (P ++ Q) = ids P ++ ids Q := by simp [ids]
  have hidsEq3 : ids (P ++ (M ++ Q)) = ids P ++ (ids M ++ ids Q) := by simp [ids]
  rw [hidsEq] at hnd
  have hndc := List.nodup_cons.1 hnd
  have hnd2 := List.nodup_append.1 hndc.2
  have ho_P : l ∉ ids P := fun q => hndc.1 (by simp [q])
  have ho_Q : l ∉ ids Q := fun q => hndc.1 (by simp [q])
  have ho_M : l ∉ ids M := fun q => r.dSentNe hl q rfl
  have hPQ : ∀ a ∈ ids P, a ∉ ids Q := fun a ha hb => hnd2.2.2 a ha a hb rfl
  have hPM : ∀ a ∈ ids P, a ∉ ids M := fun a ha hb => r.dapart hl (by rw [hidsEq]; simp only [List.mem_append]; exact Or.inl ha) hb
  have hQM : ∀ a ∈ ids Q, a ∉ ids M := fun a ha hb => r.dapart hl (by rw [hidsEq]; simp only [List.mem_append]; exact Or.inr ha) hb
  have hbU := lastId_uses l P
  have hqU := headId_uses l Q
  have hf := headId_mem (k := l) hM
  have ht := lastId_mem (k := l) hM
  have hbO : RelD.Uses l (P ++ Q) (lastId l P) := by
    rcases hbU with q | q
    · exact Or.inl q
    · exact Or.inr (by rw [hidsEq]; simp only [List.mem_append]; exact Or.inl q)
  have hqO : RelD.Uses l (P ++ Q) (headId Q l) := by
    rcases hqU with q | q
    · exact Or.inl q
    · exact Or.inr (by rw [hidsEq]; simp only [List.mem_append]; exact Or.inr q)
  have hdv : ∀ {a}, a ∈ ids M → h.valOf a ≠ none := by
    intro a ha
    obtain ⟨v, hv⟩ := r.dIdVal ha
    rw [hv]; simp
  obtain ⟨h1, e1, s1, n1, p1⟩ := setNext_spec (b := headId M l) (r.usesVal hl hbO)
  obtain ⟨h2, e2, s2, n2, p2⟩ := setPrev_spec (h := h1) (a := headId M l) (b := lastId l P)
    (by rw [s1.val]; exact hdv hf)
  obtain ⟨h3, e3, s3, n3, p3⟩ := setNext_spec (h := h2) (a := lastId l M) (b := headId Q l)
    (by rw [(s1.trans s2).val]; exact hdv ht)
  obtain ⟨h4, e4, s4, n4, p4⟩ := setPrev_spec (h := h3) (a := headId Q l) (b := lastId l M)
    (by rw [((s1.trans s2).trans s3).val]; exact r.usesVal hl hqO)
  have sv := ((s1.trans s2).trans s3).trans s4
  have nn : ∀ x, h4.nextOf x = if x = lastId l M then some (headId Q l) else if x = lastId l P then some (headId M l) else h.nextOf x := by
    intro x; rw [n4, n3, n2, n1]
  have pp : ∀ x, h4.prevOf x = if x = headId Q l then some (lastId l M) else if x = headId M l then some (lastId l P) else h.prevOf x := by
    intro x; rw [p4, p3, p2, p1]
  have hbM : lastId l P ∉ ids M := by
    rcases hbU with q | q
    · rw [q]; exact ho_M
    · exact hPM _ q
  have hqM : headId Q l ∉ ids M := by
    rcases hqU with q | q
    · rw [q]; exact ho_M
    · exact hQM _ q
  have hbQ : lastId l P ∉ ids Q := by
    rcases hbU with q | q
    · rw [q]; exact ho_Q
    · exact hPQ _ q
  have hqP : headId Q l ∉ ids P := by
    rcases hqU with q | q
    · rw [q]; exact ho_P
    · exact fun w => hPQ _ w q
  refine ⟨h4, ?_, ?_, sv.val⟩
  · unfold LHeap.linkRange
    simp only [i3.1, i3.2, ne_eq, not_true_eq_false, if_false, Option.bind_eq_bind, Option.bind_some, e1, e2, e3, e4, Option.pure_def]
  · constructor
    case fresh => intro a ha; rw [sv.val]; exact r.fresh a (by rw [← sv.next]; exact ha)
    case same => simp only [sv.next]; exact r.same
    case ring =>
      intro k xs hk
      by_cases hko : k = l
      · subst hko
        simp only [upd_same, Option.some.injEq] at hk
        subst hk
        refine ring_split.2 ⟨?_, ?_, ?_⟩
        · refine inner_frame i1 ?_ ?_
          · intro x hx
            have hx' : x ∈ k :: ids P := mem_dropLast hx
            rw [nn, if_neg, if_neg]
            · rintro rfl
              exact not_mem_dropLast (List.nodup_cons.2 ⟨ho_P, hnd2.1⟩) (lastId_getLast? k P) hx
            · rintro rfl
              rcases List.mem_cons.1 hx' with q | q
              · exact ho_M (q ▸ ht)
              · exact hPM _ q ht
          · intro x hx
            have hx' : x ∈ ids P := by simpa using hx
            rw [pp, if_neg, if_neg]
            · rintro rfl; exact hPM _ hx' hf
            · rintro rfl; exact hqP hx'
        · have hnm : ∀ y ∈ ids M, y ∉ ids Q ++ [k] := by
            intro y hy hz
            rcases List.mem_append.1 hz with q | q
            · exact hQM _ q hy
            · rw [List.mem_singleton.1 q] at hy; exact ho_M hy
          have he : ids (M ++ Q) ++ [k] = ids M ++ (ids Q ++ [k]) := by simp [ids]
          rw [he]
          have hlast : (ids M).getLast? = some (lastId k M) := by
            have h := lastId_getLast? k M
            have hne : ids M ≠ [] := by simpa [ids] using hM
            rw [List.getLast?_cons, List.getLast?_eq_getLast_of_ne_nil hne] at h
            rw [List.getLast?_eq_getLast_of_ne_nil hne]
            simpa using h
          have hhead : (ids M).head? = some (headId M k) := by
            cases M with
            | nil => exact absurd rfl hM
            | cons a M => rfl
          refine (inner_append hlast (headId_head? k Q)).2 ⟨?_, ?_, ?_, ?_⟩
          · refine inner_frame r.dinner ?_ ?_
            · intro x hx
              rw [nn, if_neg, if_neg]
              · rintro rfl; exact hbM (mem_dropLast hx)
              · rintro rfl; exact not_mem_dropLast r.dnodup hlast hx
            · intro x hx
              rw [pp, if_neg, if_neg]
              · rintro rfl; exact not_mem_tail r.dnodup hhead hx
              · rintro rfl; exact hqM (mem_tail hx)
          · refine inner_frame i2 ?_ ?_
            · intro x hx
              have hx' : x ∈ ids Q := by simpa using hx
              rw [nn, if_neg, if_neg]
              · rintro rfl; exact hbQ hx'
              · rintro rfl; exact hQM _ hx' ht
            · intro x hx
              rw [pp, if_neg, if_neg]
              · rintro rfl; exact hnm _ hf (mem_tail hx)
              · rintro rfl
                refine not_mem_tail ?_ (headId_head? k Q) hx
                exact List.nodup_append.2 ⟨hnd2.2.1, List.nodup_singleton k, by
                  intro a ha b hb e; rw [List.mem_singleton.1 hb] at e; exact ho_Q (e ▸ ha)⟩
          · rw [nn, if_pos rfl]
          · rw [pp, if_pos rfl]
        · rw [headId_append hM]
          refine ⟨?_, ?_⟩
          · rw [nn, if_neg, if_pos rfl]
            intro e; exact hbM (e ▸ ht)
          · rw [pp, if_neg, if_pos rfl]
            intro e; exact hqM (e ▸ hf)
      · simp only [upd_other _ _ hko] at hk
        have hu : ∀ x, x ∈ k :: (ids xs ++ [k]) → RelD.Uses k xs x := by
          intro x hx; simp only [List.mem_cons, List.mem_append, List.not_mem_nil, or_false] at hx
          rcases hx with q | q | q
          · exact Or.inl q
          · exact Or.inr q
          · exact Or.inl q
        refine inner_frame (r.ring hk) ?_ ?_
        · intro x hx
          rw [nn, if_neg, if_neg]
          · rintro rfl
            exact r.usesApart hl hk hko hbO (hu _ (mem_dropLast hx))
          · rintro rfl
            exact r.dUsesApart hk ht (hu _ (mem_dropLast hx))
        · intro x hx
          rw [pp, if_neg, if_neg]
          · rintro rfl
            exact r.dUsesApart hk hf (hu _ (mem_tail hx))
          · rintro rfl
            exact r.usesApart hl hk hko hqO (hu _ (mem_tail hx))
    case nodup =>
      intro k xs hk
      by_cases hko : k = l
      · subst hko
        simp only [upd_same, Option.some.injEq] at hk
        subst hk
        rw [hidsEq3]
        refine List.nodup_append.2 ⟨hnd2.1, List.nodup_append.2 ⟨r.dnodup, hnd2.2.1, ?_⟩, ?_⟩
        · intro a ha b hb e; exact hQM b hb (e ▸ ha)
        · intro a ha b hb e
          rcases List.mem_append.1 hb with q | q
          · exact hPM a ha (e ▸ q)
          · exact hPQ a ha (e ▸ q)
      · simp only [upd_other _ _ hko] at hk
        exact r.nodup hk
    case sent =>
      intro k xs hk
      rw [sv.val]
      by_cases hko : k = l
      · subst hko; exact r.sent hl
      · simp only [upd_other _ _ hko] at hk; exact r.sent hk
    case vals =>
      intro k xs i v hk hi
      rw [sv.val]
      by_cases hko : k = l
      · subst hko
        simp only [upd_same, Option.some.injEq] at hk
        subst hk
        simp only [List.mem_append] at hi
        rcases hi with q | q | q
        · exact r.vals hl (by simp [q])
        · exact r.dvals q
        · exact r.vals hl (by simp [q])
      · simp only [upd_other _ _ hko] at hk; exact r.vals hk hi
    case apart =>
      have key : ∀ k xs, (upd A.lists l (some (P ++ (M ++ Q)))) k = some xs → ∀ i ∈ ids xs,
          (∃ ys, A.lists k = some ys ∧ i ∈ ids ys) ∨ (k = l ∧ i ∈ ids M) := by
        intro k xs hk i hi
        by_cases hko : k = l
        · subst hko
          simp only [upd_same, Option.some.injEq] at hk
          subst hk
          rw [hidsEq3] at hi
          simp only [List.mem_append] at hi
          rcases hi with q | q | q
          · exact Or.inl ⟨_, hl, by rw [hidsEq]; simp only [List.mem_append]; exact Or.inl q⟩
          · exact Or.inr ⟨rfl, q⟩
          · exact Or.inl ⟨_, hl, by rw [hidsEq]; simp only [List.mem_append]; exact Or.inr q⟩
        · rw [upd_other _ _ hko] at hk
          exact Or.inl ⟨xs, hk, hi⟩
      intro k k' xs ys i hk hk' hi hi'
      rcases key k xs hk i hi with ⟨xs', a1, a2⟩ | ⟨a1, a2⟩ <;> rcases key k' ys hk' i hi' with ⟨ys', b1, b2⟩ | ⟨b1, b2⟩
      · exact r.apart a1 b1 a2 b2
      · exact absurd b2 (r.dapart a1 a2)
      · exact absurd a2 (r.dapart b1 b2)
      · rw [a1, b1]
    case dinner => exact List.IsChain.nil
    case dnodup => exact List.nodup_nil
    case dvals => intro i v hi; cases hi
    case dapart => intro k xs i _ _ hd; cases hd
    case sentOf =>
      intro a ha
      rw [sv.val] at ha
      obtain ⟨xs, hx⟩ := r.sentOf ha
      by_cases hao : a = l
      · subst hao; exact ⟨P ++ (M ++ Q), by simp only [upd_same]⟩
      · exact ⟨xs, by simp only [upd_other _ _ hao]; exact hx⟩
    case nodeOf =>
      intro a v ha
      rw [sv.val] at ha
      rcases r.nodeOf ha with ⟨k, xs, hk, hm⟩ | hm
      · by_cases hko : k = l
        · subst hko
          rw [hl] at hk
          injection hk with hk
          subst hk
          simp only [List.mem_append] at hm
          rcases hm with q | q
          · exact Or.inl ⟨k, P ++ (M ++ Q), by simp only [upd_same], by simp [q]⟩
          · exact Or.inl ⟨k, P ++ (M ++ Q), by simp only [upd_same], by simp [q]⟩
        · exact Or.inl ⟨k, xs, by simp only [upd_other _ _ hko]; exact hk, hm⟩
      · exact Or.inl ⟨l, P ++ (M ++ Q), by simp only [upd_same], by simp [hm]⟩

end Verif.Lists
