import Verif.Lists.Forward

/-!
# The invariant of singly linked lists and the primitive operations
-/

namespace Verif.Lists

variable {V : Type}

/-- Following the links `N` from `a` visits exactly `xs`, and the last link is `b`. -/
def PathTo (N : Nat → Option (Option Nat)) : Nat → List Nat → Option Nat → Prop
  | a, [], b => N a = some b
  | a, x :: xs, b => N a = some (some x) ∧ PathTo N x xs b

/-- The same for a sequence whose first element was reached. -/
def TailTo (N : Nat → Option (Option Nat)) : List Nat → Option Nat → Prop
  | [], _ => True
  | x :: xs, b => PathTo N x xs b

/-- Where the link in front of `xs` points to. -/
def startOf (xs : List Nat) (b : Option Nat) : Option Nat := (xs.head?).or b

theorem path_append {N : Nat → Option (Option Nat)} {b : Option Nat} : ∀ {P Q : List Nat} {a : Nat},
    PathTo N a (P ++ Q) b ↔ PathTo N a P (startOf Q b) ∧ TailTo N Q b
  | [], [], a => by simp [PathTo, TailTo, startOf]
  | [], q :: Q, a => by simp [PathTo, TailTo, startOf]
  | p :: P, Q, a => by
    have := path_append (N := N) (b := b) (P := P) (Q := Q) (a := p)
    simp only [List.cons_append, PathTo, this, and_assoc]

theorem path_last {N : Nat → Option (Option Nat)} {b : Option Nat} : ∀ {P : List Nat} {a : Nat},
    PathTo N a P b → N (P.getLastD a) = some b
  | [], _, h => h
  | p :: P, a, h => by
    have := path_last h.2
    rwa [List.getLastD_cons]

/-- The path depends on the links of its addresses only; the last one may change. -/
theorem path_retarget {N N' : Nat → Option (Option Nat)} {b b' : Option Nat} : ∀ {P : List Nat} {a : Nat},
    PathTo N a P b → (a :: P).Nodup → (∀ x, x ∈ a :: P → x ≠ P.getLastD a → N' x = N x) → N' (P.getLastD a) = some b' →
      PathTo N' a P b'
  | [], _, _, _, _, hl => hl
  | p :: P, a, h, hn, hf, hl => by
    rw [List.getLastD_cons] at hl hf
    have hap : a ≠ P.getLastD p := by
      intro he
      have hm : P.getLastD p ∈ p :: P := by
        cases P with
        | nil => simp
        | cons q P => rw [List.getLastD_eq_getLast?]; simp [List.getLast?_cons]
                      exact Or.inr (by
                        cases hP : P.getLast? with
                        | none => simp
                        | some z => simp; exact Or.inr (List.mem_of_getLast? hP))
      rw [← he] at hm
      exact (List.nodup_cons.1 hn).1 hm
    refine ⟨?_, path_retarget h.2 (List.nodup_cons.1 hn).2 (fun x hx hne => hf x (List.mem_cons_of_mem _ hx) hne) hl⟩
    rw [hf a (List.mem_cons_self ..) hap]
    exact h.1

theorem path_frame {N N' : Nat → Option (Option Nat)} {b : Option Nat} : ∀ {P : List Nat} {a : Nat},
    PathTo N a P b → (∀ x, x ∈ a :: P → N' x = N x) → PathTo N' a P b
  | [], a, h, hf => by rw [PathTo, hf a (by simp)]; exact h
  | p :: P, a, h, hf => ⟨by rw [hf a (by simp)]; exact h.1, path_frame h.2 fun x hx => hf x (List.mem_cons_of_mem _ hx)⟩

theorem tail_frame {N N' : Nat → Option (Option Nat)} {b : Option Nat} : ∀ {P : List Nat},
    TailTo N P b → (∀ x, x ∈ P → N' x = N x) → TailTo N' P b
  | [], _, _ => trivial
  | _ :: _, h, hf => path_frame h hf

/-- The memory `h` holds exactly the lists of `A`, each a chain that ends in a null link. -/
structure FRel (h : FHeap V) (A : Abs V) : Prop where
  fresh : ∀ a, h.next ≤ a → h.valOf a = none
  same : A.next = h.next
  path : ∀ {k xs}, A.lists k = some xs → PathTo h.nextOf k (ids xs) none
  nodup : ∀ {k xs}, A.lists k = some xs → (ids xs).Nodup
  apart : ∀ {k k' xs ys i}, A.lists k = some xs → A.lists k' = some ys → i ∈ ids xs → i ∈ ids ys → k = k'
  sent : ∀ {a}, h.valOf a = some none ↔ ∃ xs, A.lists a = some xs
  node : ∀ {a v}, h.valOf a = some (some v) ↔ ∃ k xs, A.lists k = some xs ∧ (a, v) ∈ xs

namespace FRel

variable {h : FHeap V} {A : Abs V}

theorem idVal (r : FRel h A) {k xs i} (hk : A.lists k = some xs) (hi : i ∈ ids xs) : ∃ v, h.valOf i = some (some v) := by
  obtain ⟨v, hv⟩ := mem_ids.1 hi
  exact ⟨v, r.node.2 ⟨k, xs, hk, hv⟩⟩

theorem sentNe (r : FRel h A) {k ys l xs i} (hl : A.lists l = some xs) (hk : A.lists k = some ys) (hi : i ∈ ids xs) : i ≠ k := by
  rintro rfl
  obtain ⟨v, hv⟩ := r.idVal hl hi
  rw [r.sent.2 ⟨_, hk⟩] at hv
  cases hv

theorem notMem (r : FRel h A) {l xs} (hl : A.lists l = some xs) : l ∉ ids xs := fun hi => r.sentNe hl hl hi rfl

theorem nodupAll (r : FRel h A) {l xs} (hl : A.lists l = some xs) : (l :: ids xs).Nodup :=
  List.nodup_cons.2 ⟨r.notMem hl, r.nodup hl⟩

theorem usesApart (r : FRel h A) {k ys l xs a} (hl : A.lists l = some xs) (hk : A.lists k = some ys) (hne : k ≠ l)
    (ha : RelD.Uses l xs a) : ¬ RelD.Uses k ys a := by
  rcases ha with rfl | ha
  · rintro (rfl | hb)
    · exact hne rfl
    · exact r.sentNe hk hl hb rfl
  · rintro (rfl | hb)
    · exact r.sentNe hl hk ha rfl
    · exact hne (r.apart hk hl hb ha)

theorem usesVal (r : FRel h A) {k ys a} (hk : A.lists k = some ys) (ha : RelD.Uses k ys a) : h.valOf a ≠ none := by
  rcases ha with rfl | ha
  · rw [r.sent.2 ⟨_, hk⟩]; simp
  · obtain ⟨v, hv⟩ := r.idVal hk ha
    rw [hv]; simp

theorem lt (r : FRel h A) {a} (ha : h.valOf a ≠ none) : a < h.next := by
  by_contra hc
  exact ha (r.fresh a (Nat.le_of_not_lt hc))

theorem length_le (r : FRel h A) {l xs} (hl : A.lists l = some xs) : xs.length ≤ h.next := by
  have := length_le_of_nodup_lt (r.nodup hl) fun x hx => r.lt (r.usesVal hl (Or.inr hx))
  simpa [ids] using this

/-- The value stored for a node is the value of the list. -/
theorem val_eq (r : FRel h A) {k xs i v w} (hk : A.lists k = some xs) (hv : (i, v) ∈ xs) (hw : h.valOf i = some (some w)) : w = v := by
  have := r.node.2 ⟨k, xs, hk, hv⟩
  rw [hw] at this
  injection this with this
  injection this

end FRel

/-! ## Memory -/

theorem FHeap.valOf_none {h : FHeap V} {a : Nat} : h.valOf a = none ↔ h.nextOf a = none := by
  simp [FHeap.valOf, FHeap.nextOf]

theorem fnext_some {h : FHeap V} {a : Nat} (ha : h.valOf a ≠ none) : ∃ n, h.nextOf a = some n := by
  have : h.nextOf a ≠ none := fun hc => ha (FHeap.valOf_none.2 hc)
  exact Option.ne_none_iff_exists'.1 this

theorem fsetNext_spec {h : FHeap V} {a : Nat} {b : Option Nat} (ha : h.valOf a ≠ none) :
    ∃ h', h.setNext a b = some h' ∧ h'.next = h.next ∧ h'.valOf = h.valOf ∧ h'.nextOf = upd h.nextOf a (some b) := by
  cases hc : h.cell a with
  | none => exact absurd (by simp [FHeap.valOf, hc]) ha
  | some c =>
    refine ⟨{ h with cell := upd h.cell a (some { c with next := b }) }, by rw [FHeap.setNext, hc]; rfl, rfl, ?_, ?_⟩
    · funext x
      by_cases hx : x = a
      · subst hx; simp [FHeap.valOf, upd_same, hc]
      · simp [FHeap.valOf, upd_other _ _ hx]
    · funext x
      by_cases hx : x = a
      · subst hx; simp [FHeap.nextOf, upd_same]
      · simp [FHeap.nextOf, upd_other _ _ hx]

theorem falloc_next (h : FHeap V) (c : FLink V) (n : Nat) (a : Nat) :
    (FHeap.mk (upd h.cell a (some c)) n).nextOf = upd h.nextOf a (some c.next) := by
  funext x
  by_cases hx : x = a
  · subst hx; simp [FHeap.nextOf, upd_same]
  · simp [FHeap.nextOf, upd_other _ _ hx]

theorem falloc_val (h : FHeap V) (c : FLink V) (n : Nat) (a : Nat) :
    (FHeap.mk (upd h.cell a (some c)) n).valOf = upd h.valOf a (some c.val) := by
  funext x
  by_cases hx : x = a
  · subst hx; simp [FHeap.valOf, upd_same]
  · simp [FHeap.valOf, upd_other _ _ hx]

theorem ffree_next (h : FHeap V) (n : Nat) (a : Nat) :
    (FHeap.mk (upd h.cell a none) n).nextOf = upd h.nextOf a none := by
  funext x
  by_cases hx : x = a
  · subst hx; simp [FHeap.nextOf, upd_same]
  · simp [FHeap.nextOf, upd_other _ _ hx]

theorem ffree_val (h : FHeap V) (n : Nat) (a : Nat) :
    (FHeap.mk (upd h.cell a none) n).valOf = upd h.valOf a none := by
  funext x
  by_cases hx : x = a
  · subst hx; simp [FHeap.valOf, upd_same]
  · simp [FHeap.valOf, upd_other _ _ hx]

theorem fcell_of_val {h : FHeap V} {a : Nat} {w : Option V} (hv : h.valOf a = some w) : ∃ n, h.cell a = some ⟨n, w⟩ := by
  cases hc : h.cell a with
  | none => simp [FHeap.valOf, hc] at hv
  | some c =>
    obtain ⟨n, w'⟩ := c
    simp [FHeap.valOf, hc] at hv
    exact ⟨n, by rw [hv]⟩

/-! ## Replacing lists -/

theorem path_cons_tail {N : Nat → Option (Option Nat)} {a : Nat} {Q : List Nat} {b : Option Nat} :
    PathTo N a Q b ↔ N a = some (startOf Q b) ∧ TailTo N Q b := path_append (P := [])

/-- One list changes. -/
theorem FRel.upd1 {h h' : FHeap V} {A : Abs V} {l n : Nat} {xs xs' : List (Nat × V)} (r : FRel h A) (hl : A.lists l = some xs)
    (hnext : h'.next = n) (hle : ∀ a, n ≤ a → h'.valOf a = none)
    (hp : PathTo h'.nextOf l (ids xs') none) (hn : (ids xs').Nodup)
    (hframe : ∀ a, ¬ RelD.Uses l xs a → h.valOf a ≠ none → h'.nextOf a = h.nextOf a)
    (hs : ∀ a, h'.valOf a = some none ↔ h.valOf a = some none)
    (hv : ∀ a v, h'.valOf a = some (some v) ↔ (a, v) ∈ xs' ∨ (h.valOf a = some (some v) ∧ a ∉ ids xs))
    (hnew : ∀ i ∈ ids xs', i ∈ ids xs ∨ h.valOf i = none) :
    FRel h' ⟨upd A.lists l (some xs'), n⟩ where
  fresh := by rw [hnext]; exact hle
  same := hnext.symm
  path := by
    intro k ys hk
    by_cases hkl : k = l
    · subst hkl
      simp only [upd_same, Option.some.injEq] at hk
      subst hk
      exact hp
    · simp only [upd_other _ _ hkl] at hk
      refine path_frame (r.path hk) fun x hx => ?_
      have hu : RelD.Uses k ys x := by simpa [RelD.Uses] using hx
      exact hframe x (r.usesApart hk hl (Ne.symm hkl) hu) (r.usesVal hk hu)
  nodup := by
    intro k ys hk
    by_cases hkl : k = l
    · subst hkl
      simp only [upd_same, Option.some.injEq] at hk
      subst hk
      exact hn
    · simp only [upd_other _ _ hkl] at hk
      exact r.nodup hk
  apart := by
    have key : ∀ {k ys i}, k ≠ l → A.lists k = some ys → i ∈ ids ys → i ∈ ids xs' → False := by
      intro k ys i hkl hk hi hi'
      rcases hnew i hi' with hm | hm
      · exact hkl (r.apart hk hl hi hm)
      · exact r.usesVal hk (Or.inr hi) hm
    intro k k' ys zs i hk hk' hi hi'
    by_cases hkl : k = l
    · by_cases hkl' : k' = l
      · rw [hkl, hkl']
      · subst hkl
        simp only [upd_same, Option.some.injEq] at hk
        subst hk
        simp only [upd_other _ _ hkl'] at hk'
        exact (key hkl' hk' hi' hi).elim
    · simp only [upd_other _ _ hkl] at hk
      by_cases hkl' : k' = l
      · subst hkl'
        simp only [upd_same, Option.some.injEq] at hk'
        subst hk'
        exact (key hkl hk hi hi').elim
      · simp only [upd_other _ _ hkl'] at hk'
        exact r.apart hk hk' hi hi'
  sent := by
    intro a
    rw [hs, r.sent]
    by_cases ha : a = l
    · subst ha; simp [upd_same, hl]
    · simp [upd_other _ _ ha]
  node := by
    intro a v
    rw [hv, r.node]
    constructor
    · rintro (hm | ⟨⟨k, ys, hk, hm⟩, hn⟩)
      · exact ⟨l, xs', by simp [upd_same], hm⟩
      · have hkl : k ≠ l := by
          rintro rfl
          rw [hl] at hk
          injection hk with hk
          subst hk
          exact hn (mem_ids.2 ⟨v, hm⟩)
        exact ⟨k, ys, by simpa [upd_other _ _ hkl] using hk, hm⟩
    · rintro ⟨k, ys, hk, hm⟩
      by_cases hkl : k = l
      · subst hkl
        simp only [upd_same, Option.some.injEq] at hk
        subst hk
        exact Or.inl hm
      · simp only [upd_other _ _ hkl] at hk
        exact Or.inr ⟨⟨k, ys, hk, hm⟩, fun hi => hkl (r.apart hk hl (mem_ids.2 ⟨v, hm⟩) hi)⟩

/-- Two lists exchange nodes. -/
theorem FRel.upd2 {h h' : FHeap V} {A : Abs V} {l o : Nat} {xs xs' ys ys' : List (Nat × V)} (r : FRel h A) (hlo : l ≠ o)
    (hl : A.lists l = some xs) (ho : A.lists o = some ys) (hnext : h'.next = h.next) (hval : h'.valOf = h.valOf)
    (hp : PathTo h'.nextOf l (ids xs') none) (hq : PathTo h'.nextOf o (ids ys') none)
    (hframe : ∀ a, ¬ RelD.Uses l xs a → ¬ RelD.Uses o ys a → h'.nextOf a = h.nextOf a)
    (hperm : (xs' ++ ys').Perm (xs ++ ys)) :
    FRel h' ⟨upd (upd A.lists o (some ys')) l (some xs'), A.next⟩ := by
  have hnd : (ids (xs ++ ys)).Nodup := by
    rw [ids, List.map_append, List.nodup_append]
    exact ⟨r.nodup hl, r.nodup ho, fun a ha b hb hab => hlo (r.apart hl ho ha (hab ▸ hb))⟩
  have hnd' : (ids (xs' ++ ys')).Nodup := (hperm.map _).nodup_iff.2 hnd
  have hnd'' := hnd'
  rw [ids, List.map_append, List.nodup_append] at hnd'
  have hmem : ∀ a, a ∈ ids xs' ∨ a ∈ ids ys' ↔ a ∈ ids xs ∨ a ∈ ids ys := by
    intro a
    have := (hperm.map (·.1)).mem_iff (a := a)
    simpa only [List.map_append, List.mem_append] using this
  have cases3 : ∀ {k zs}, upd (upd A.lists o (some ys')) l (some xs') k = some zs →
      (k = l ∧ zs = xs') ∨ (k = o ∧ zs = ys') ∨ (k ≠ l ∧ k ≠ o ∧ A.lists k = some zs) := by
    intro k zs hk
    by_cases hkl : k = l
    · subst hkl; simp only [upd_same, Option.some.injEq] at hk; exact Or.inl ⟨rfl, hk.symm⟩
    · simp only [upd_other _ _ hkl] at hk
      by_cases hko : k = o
      · subst hko; simp only [upd_same, Option.some.injEq] at hk; exact Or.inr (Or.inl ⟨rfl, hk.symm⟩)
      · simp only [upd_other _ _ hko] at hk; exact Or.inr (Or.inr ⟨hkl, hko, hk⟩)
  have key : ∀ {k zs i}, k ≠ l → k ≠ o → A.lists k = some zs → i ∈ ids zs → ¬ (i ∈ ids xs' ∨ i ∈ ids ys') := by
    intro k zs i hkl hko hk hi hc
    rcases (hmem i).1 hc with hm | hm
    · exact hkl (r.apart hk hl hi hm)
    · exact hko (r.apart hk ho hi hm)
  refine ⟨?_, ?_, ?_, ?_, ?_, ?_, ?_⟩
  · rw [hnext, hval]; exact r.fresh
  · rw [hnext]; exact r.same
  · intro k zs hk
    rcases cases3 hk with ⟨rfl, rfl⟩ | ⟨rfl, rfl⟩ | ⟨hkl, hko, hk⟩
    · exact hp
    · exact hq
    · refine path_frame (r.path hk) fun x hx => ?_
      have hu : RelD.Uses k zs x := by simpa [RelD.Uses] using hx
      exact hframe x (r.usesApart hk hl (Ne.symm hkl) hu) (r.usesApart hk ho (Ne.symm hko) hu)
  · intro k zs hk
    rcases cases3 hk with ⟨rfl, rfl⟩ | ⟨rfl, rfl⟩ | ⟨hkl, hko, hk⟩
    · exact hnd'.1
    · exact hnd'.2.1
    · exact r.nodup hk
  · intro k k' zs ws i hk hk' hi hi'
    have c1 := cases3 hk
    have c2 := cases3 hk'
    clear hk hk'
    rcases c1 with ⟨rfl, rfl⟩ | ⟨rfl, rfl⟩ | ⟨hkl, hko, hk⟩ <;>
      rcases c2 with ⟨rfl, rfl⟩ | ⟨rfl, rfl⟩ | ⟨hkl', hko', hk'⟩
    · rfl
    · exact (hnd'.2.2 i hi i hi' rfl).elim
    · exact (key hkl' hko' hk' hi' (Or.inl hi)).elim
    · exact (hnd'.2.2 i hi' i hi rfl).elim
    · rfl
    · exact (key hkl' hko' hk' hi' (Or.inr hi)).elim
    · exact (key hkl hko hk hi (Or.inl hi')).elim
    · exact (key hkl hko hk hi (Or.inr hi')).elim
    · exact r.apart hk hk' hi hi'
  · intro a
    rw [hval, r.sent]
    by_cases hal : a = l
    · subst hal; simp [upd_same, hl]
    · by_cases hao : a = o
      · subst hao; simp [upd_same, upd_other _ _ hal, ho]
      · simp [upd_other _ _ hal, upd_other _ _ hao]
  · intro a v
    rw [hval, r.node]
    have hpm := hperm.mem_iff (a := (a, v))
    rw [List.mem_append, List.mem_append] at hpm
    constructor
    · rintro ⟨k, zs, hk, hm⟩
      have hcase : ((a, v) ∈ xs ∨ (a, v) ∈ ys) ∨ (k ≠ l ∧ k ≠ o) := by
        by_cases hkl : k = l
        · subst hkl; rw [hl] at hk; injection hk with hk; subst hk; exact Or.inl (Or.inl hm)
        · by_cases hko : k = o
          · subst hko; rw [ho] at hk; injection hk with hk; subst hk; exact Or.inl (Or.inr hm)
          · exact Or.inr ⟨hkl, hko⟩
      rcases hcase with hc | ⟨hkl, hko⟩
      · rcases hpm.2 hc with hc | hc
        · exact ⟨l, xs', by simp [upd_same], hc⟩
        · exact ⟨o, ys', by simp [upd_same, upd_other _ _ (Ne.symm hlo)], hc⟩
      · exact ⟨k, zs, by simp [upd_other _ _ hkl, upd_other _ _ hko, hk], hm⟩
    · rintro ⟨k, zs, hk, hm⟩
      rcases cases3 hk with ⟨rfl, rfl⟩ | ⟨rfl, rfl⟩ | ⟨hkl, hko, hk⟩
      · rcases hpm.1 (Or.inl hm) with hc | hc
        · exact ⟨_, _, hl, hc⟩
        · exact ⟨_, _, ho, hc⟩
      · rcases hpm.1 (Or.inr hm) with hc | hc
        · exact ⟨_, _, hl, hc⟩
        · exact ⟨_, _, ho, hc⟩
      · exact ⟨k, zs, hk, hm⟩

/-! ## The primitives -/

theorem flast_uses {l : Nat} {P Q : List (Nat × V)} : RelD.Uses l (P ++ Q) (lastId l P) := by
  rcases lastId_uses l P with h | h
  · exact Or.inl h
  · exact Or.inr (by rw [ids, List.map_append, List.mem_append]; exact Or.inl h)

theorem finsert_spec {h : FHeap V} {A : Abs V} {l : Nat} {P Q : List (Nat × V)} (r : FRel h A) (hl : A.lists l = some (P ++ Q)) (v : V) :
    ∃ h', h.insertNode (lastId l P) v = some h' ∧ FRel h' ⟨upd A.lists l (some (P ++ (A.next, v) :: Q)), A.next + 1⟩ := by
  have hb := r.usesVal hl (flast_uses (l := l) (P := P) (Q := Q))
  have hlt := r.lt hb
  have hbn : lastId l P ≠ h.next := Nat.ne_of_lt hlt
  have hpath := r.path hl
  rw [ids, List.map_append, path_append] at hpath
  have hlast := path_last hpath.1
  have hN0 : (h.makeNode v).nextOf = upd h.nextOf h.next (some none) := falloc_next ..
  have hV0 : (h.makeNode v).valOf = upd h.valOf h.next (some (some v)) := falloc_val ..
  obtain ⟨h1, e1, n1, v1, N1⟩ := fsetNext_spec (h := h.makeNode v) (a := h.next) (b := startOf (ids Q) none)
    (by rw [hV0, upd_same]; simp)
  obtain ⟨h2, e2, n2, v2, N2⟩ := fsetNext_spec (h := h1) (a := lastId l P) (b := some h.next)
    (by rw [v1, hV0, upd_other _ _ hbn]; exact hb)
  have hV : h2.valOf = upd h.valOf h.next (some (some v)) := by rw [v2, v1, hV0]
  have hN : ∀ a, a ≠ h.next → a ≠ lastId l P → h2.nextOf a = h.nextOf a := by
    intro a ha hb
    rw [N2, upd_other _ _ hb, N1, upd_other _ _ ha, hN0, upd_other _ _ ha]
  have hnl : h2.nextOf (lastId l P) = some (some h.next) := by rw [N2, upd_same]
  have hnn : h2.nextOf h.next = some (startOf (ids Q) none) := by rw [N2, upd_other _ _ (Ne.symm hbn), N1, upd_same]
  have huse : ∀ x, RelD.Uses l (P ++ Q) x → x ≠ h.next := fun x hx => Nat.ne_of_lt (r.lt (r.usesVal hl hx))
  have hall := r.nodupAll hl
  rw [ids, List.map_append] at hall
  have hQ : ∀ x ∈ ids Q, x ≠ lastId l P := by
    intro x hx he
    have h1 := List.mem_of_getLast? (lastId_getLast? l P)
    rw [← he, ← List.cons_append, List.nodup_append] at *
    exact hall.2.2 x h1 x hx rfl
  refine ⟨h2, ?_, ?_⟩
  · rw [FHeap.insertNode]
    have : (h.makeNode v).nextOf (lastId l P) = some (startOf (ids Q) none) := by rw [hN0, upd_other _ _ hbn]; exact hlast
    simp only [this, Option.bind_eq_bind, Option.bind_some, e1, e2]
  · rw [r.same]
    refine r.upd1 hl (by rw [n2, n1]; rfl) ?_ ?_ ?_ ?_ ?_ ?_ ?_
    · intro a ha
      rw [hV, upd_other _ _ (by omega)]
      exact r.fresh a (by omega)
    · rw [ids, List.map_append, path_append]
      refine ⟨?_, ?_⟩
      · refine path_retarget hpath.1 ?_ ?_ ?_
        · rw [← List.cons_append] at hall
          exact (List.nodup_append.1 hall).1
        · intro x hx hne
          refine hN x (huse x ?_) hne
          rw [uses_append]
          exact Or.inl (by simpa [RelD.Uses] using hx)
        · exact hnl
      · show PathTo h2.nextOf h.next (ids Q) none
        rw [path_cons_tail]
        refine ⟨hnn, tail_frame hpath.2 fun x hx => hN x (huse x ?_) (hQ x hx)⟩
        rw [uses_append]; exact Or.inr hx
    · have hnm : h.next ∉ ids (P ++ Q) := fun hm => huse _ (Or.inr hm) rfl
      have hp : (ids (P ++ (h.next, v) :: Q)).Perm (h.next :: ids (P ++ Q)) := by
        rw [ids, ids, List.map_append, List.map_append]
        exact List.perm_middle
      exact hp.nodup_iff.2 (List.nodup_cons.2 ⟨hnm, r.nodup hl⟩)
    · intro a ha hva
      refine hN a (Nat.ne_of_lt (r.lt hva)) ?_
      rintro rfl
      exact ha flast_uses
    · intro a
      by_cases ha : a = h.next
      · subst ha; rw [hV, upd_same, r.fresh _ (Nat.le_refl _)]; simp
      · rw [hV, upd_other _ _ ha]
    · intro a w
      by_cases ha : a = h.next
      · subst ha
        rw [hV, upd_same, r.fresh _ (Nat.le_refl _)]
        constructor
        · intro hw; injection hw with hw; injection hw with hw; subst hw; exact Or.inl (by simp)
        · rintro (hm | ⟨hm, _⟩)
          · have hnm : h.next ∉ ids (P ++ Q) := fun hm => huse _ (Or.inr hm) rfl
            have : (h.next, w) ∈ P ++ Q ∨ w = v := by
              simp only [List.mem_append, List.mem_cons, Prod.mk.injEq, true_and] at hm ⊢
              tauto
            rcases this with hc | rfl
            · exact (hnm (mem_ids.2 ⟨w, hc⟩)).elim
            · rfl
          · cases hm
      · rw [hV, upd_other _ _ ha]
        have hm : (a, w) ∈ P ++ (h.next, v) :: Q ↔ (a, w) ∈ P ++ Q := by
          simp [ha]
        rw [hm]
        constructor
        · intro hw
          by_cases hi : a ∈ ids (P ++ Q)
          · obtain ⟨u, hu⟩ := mem_ids.1 hi
            rw [r.val_eq hl hu hw]
            exact Or.inl hu
          · exact Or.inr ⟨hw, hi⟩
        · rintro (hw | hw)
          · exact r.node.2 ⟨l, _, hl, hw⟩
          · exact hw.1
    · intro i hi
      by_cases hin : i = h.next
      · exact Or.inr (by rw [hin]; exact r.fresh _ (Nat.le_refl _))
      · refine Or.inl ?_
        simp [ids, hin] at hi ⊢
        exact hi

theorem ferase_spec {h : FHeap V} {A : Abs V} {l : Nat} {P Q : List (Nat × V)} {x : Nat × V} (r : FRel h A)
    (hl : A.lists l = some (P ++ x :: Q)) :
    ∃ h', h.eraseAfter (lastId l P) = some (h', startOf (ids Q) none) ∧ FRel h' ⟨upd A.lists l (some (P ++ Q)), A.next⟩ := by
  obtain ⟨i, v⟩ := x
  have hbu := flast_uses (l := l) (P := P) (Q := (i, v) :: Q)
  have hb := r.usesVal hl hbu
  have hiu : RelD.Uses l (P ++ (i, v) :: Q) i := Or.inr (by simp [ids])
  have hiv : h.valOf i = some (some v) := r.node.2 ⟨l, _, hl, by simp⟩
  have hpath := r.path hl
  rw [ids, List.map_append, path_append] at hpath
  have hlast : h.nextOf (lastId l P) = some (some i) := path_last hpath.1
  have hiq : PathTo h.nextOf i (ids Q) none := hpath.2
  rw [path_cons_tail] at hiq
  have hall := r.nodupAll hl
  rw [ids, List.map_append, ← List.cons_append, List.nodup_append] at hall
  have hlm := List.mem_of_getLast? (lastId_getLast? l P)
  have hbi : lastId l P ≠ i := hall.2.2 _ hlm i (by simp)
  have hQ : ∀ y ∈ ids Q, y ≠ lastId l P ∧ y ≠ i := by
    intro y hy
    refine ⟨fun he => hall.2.2 _ hlm y (by simp [hy]) he.symm, ?_⟩
    rintro rfl
    have := hall.2.1
    simp only [List.map_cons, List.nodup_cons] at this
    exact this.1 hy
  have hPi : ∀ y ∈ l :: ids P, y ≠ i := fun y hy he => hall.2.2 y hy i (by simp) he
  obtain ⟨h1, e1, n1, v1, N1⟩ := fsetNext_spec (h := h) (a := lastId l P) (b := startOf (ids Q) none) hb
  obtain ⟨nx, hc⟩ := fcell_of_val (h := h1) (a := i) (w := some v) (by rw [v1]; exact hiv)
  have N2 : (FHeap.mk (upd h1.cell i none) h1.next).nextOf = upd h1.nextOf i none := ffree_next ..
  have V2 : (FHeap.mk (upd h1.cell i none) h1.next).valOf = upd h1.valOf i none := ffree_val ..
  have hN : ∀ a, a ≠ i → a ≠ lastId l P → (FHeap.mk (upd h1.cell i none) h1.next).nextOf a = h.nextOf a := by
    intro a ha hb
    rw [N2, upd_other _ _ ha, N1, upd_other _ _ hb]
  refine ⟨⟨upd h1.cell i none, h1.next⟩, ?_, ?_⟩
  · rw [FHeap.eraseAfter]
    simp only [hlast, Option.bind_eq_bind, Option.bind_some, hiq.1, e1, FHeap.destroyNode, hc]
  · rw [r.same]
    refine r.upd1 hl n1 ?_ ?_ ?_ ?_ ?_ ?_ ?_
    · intro a ha
      rw [V2, v1]
      by_cases hai : a = i
      · rw [hai, upd_same]
      · rw [upd_other _ _ hai]; exact r.fresh a ha
    · rw [ids, List.map_append, path_append]
      refine ⟨?_, tail_frame hiq.2 fun y hy => hN y (hQ y hy).2 (hQ y hy).1⟩
      refine path_retarget hpath.1 hall.1 (fun y hy hne => hN y (hPi y hy) hne) ?_
      show _ = some (startOf (ids Q) none)
      rw [N2, upd_other _ _ hbi, N1, upd_same]
    · have hs : (ids (P ++ Q)).Sublist (ids (P ++ (i, v) :: Q)) :=
        (List.Sublist.append_left (List.sublist_cons_self ..) P).map _
      exact hs.nodup (r.nodup hl)
    · intro a ha _
      exact hN a (fun he => ha (he ▸ hiu)) (fun he => ha (he ▸ hbu))
    · intro a
      rw [V2, v1]
      by_cases hai : a = i
      · subst hai; rw [upd_same, hiv]; simp
      · rw [upd_other _ _ hai]
    · intro a w
      rw [V2, v1]
      have hni : i ∉ ids (P ++ Q) := by
        intro hm
        rw [ids, List.map_append, List.mem_append] at hm
        rcases hm with hm | hm
        · exact hPi i (List.mem_cons_of_mem _ hm) rfl
        · exact (hQ i hm).2 rfl
      by_cases hai : a = i
      · subst hai
        rw [upd_same]
        constructor
        · intro hc; cases hc
        · rintro (hm | ⟨_, hm⟩)
          · exact (hni (mem_ids.2 ⟨w, hm⟩)).elim
          · exact (hm (by simp [ids])).elim
      · rw [upd_other _ _ hai]
        have hm : (a, w) ∈ P ++ Q ↔ (a, w) ∈ P ++ (i, v) :: Q := by simp [hai]
        rw [hm]
        constructor
        · intro hw
          by_cases hi : a ∈ ids (P ++ (i, v) :: Q)
          · obtain ⟨u, hu⟩ := mem_ids.1 hi
            rw [r.val_eq hl hu hw]
            exact Or.inl hu
          · exact Or.inr ⟨hw, hi⟩
        · rintro (hw | hw)
          · exact r.node.2 ⟨l, _, hl, hw⟩
          · exact hw.1
    · intro a ha
      refine Or.inl ?_
      rw [ids, List.map_append, List.mem_append] at *
      simp only [List.map_cons, List.mem_cons]
      tauto

theorem fsplice_spec {h : FHeap V} {A : Abs V} {l o : Nat} {P Q R M S : List (Nat × V)} (r : FRel h A) (hlo : l ≠ o)
    (hl : A.lists l = some (P ++ Q)) (ho : A.lists o = some (R ++ (M ++ S))) :
    ∃ h', h.spliceAfter l (lastId l P) o (lastId o R) (lastId o (R ++ M)) = some h' ∧
      FRel h' ⟨upd (upd A.lists o (some (R ++ S))) l (some (P ++ (M ++ Q))), A.next⟩ := by
  rw [FHeap.spliceAfter, if_neg hlo]
  have hallo := r.nodupAll ho
  rw [ids, List.map_append, ← List.cons_append, List.nodup_append] at hallo
  have hRm := List.mem_of_getLast? (lastId_getLast? o R)
  rcases List.eq_nil_or_concat M with rfl | ⟨M', m, rfl⟩
  · simp only [List.append_nil, if_true]
    refine ⟨h, rfl, ?_⟩
    simp only [List.nil_append] at ho ⊢
    rw [upd_self ho, upd_self hl]
    exact r
  · rw [List.concat_eq_append] at *
    generalize hM : M' ++ [m] = M at *
    have hmM : m ∈ M := by rw [← hM]; simp
    have hlastm : lastId o (R ++ M) = m.1 := by
      rw [← hM, ← List.append_assoc]
      simp [lastId, ids]
    have hlastM : ∀ d, (ids M).getLastD d = m.1 := by
      intro d; rw [← hM]; simp [ids]
    obtain ⟨M0, M1, hMc⟩ : ∃ M0 M1, M = M0 :: M1 := by
      cases M with
      | nil => simp at hmM
      | cons a b => exact ⟨a, b, rfl⟩
    have hRMm : lastId o R ≠ m.1 := by
      refine hallo.2.2 _ hRm _ ?_
      rw [List.map_append, List.mem_append]
      exact Or.inl (List.mem_map_of_mem hmM)
    rw [hlastm, if_neg hRMm]
    have hpl := r.path hl
    rw [ids, List.map_append, path_append] at hpl
    have hpo := r.path ho
    rw [ids, List.map_append, path_append, List.map_append] at hpo
    have hnl : h.nextOf (lastId l P) = some (startOf (ids Q) none) := path_last hpl.1
    have hnR : h.nextOf (lastId o R) = some (some M0.1) := by
      have := path_last hpo.1
      rw [this, hMc]; rfl
    have hMp : PathTo h.nextOf M0.1 (ids M1) (startOf (ids S) none) ∧ TailTo h.nextOf (ids S) none := by
      have := hpo.2
      rw [hMc] at this
      simp only [List.map_cons, List.cons_append, TailTo] at this
      rwa [path_append] at this
    have hlastM1 : (ids M1).getLastD M0.1 = m.1 := by
      have := hlastM 0
      rw [hMc, ids, List.map_cons, List.getLastD_cons] at this
      exact this
    have hnm : h.nextOf m.1 = some (startOf (ids S) none) := by
      have := path_last hMp.1
      rwa [hlastM1] at this
    have hul := flast_uses (l := l) (P := P) (Q := Q)
    have huo := flast_uses (l := o) (P := R) (Q := M ++ S)
    have hum : RelD.Uses o (R ++ (M ++ S)) m.1 := by
      refine Or.inr ?_
      simp only [ids, List.map_append, List.mem_append]
      exact Or.inr (Or.inl (List.mem_map_of_mem hmM))
    have hdis : ∀ x y, RelD.Uses l (P ++ Q) x → RelD.Uses o (R ++ (M ++ S)) y → x ≠ y := by
      rintro x y hx hy rfl
      exact r.usesApart hl ho (Ne.symm hlo) hx hy
    obtain ⟨h1, e1, n1, v1, N1⟩ := fsetNext_spec (h := h) (a := lastId l P) (b := some M0.1) (r.usesVal hl hul)
    obtain ⟨h2, e2, n2, v2, N2⟩ := fsetNext_spec (h := h1) (a := m.1) (b := startOf (ids Q) none)
      (by rw [v1]; exact r.usesVal ho hum)
    obtain ⟨h3, e3, n3, v3, N3⟩ := fsetNext_spec (h := h2) (a := lastId o R) (b := startOf (ids S) none)
      (by rw [v2, v1]; exact r.usesVal ho huo)
    have hm1 : h1.nextOf m.1 = some (startOf (ids S) none) := by
      rw [N1, upd_other _ _ (Ne.symm (hdis _ _ hul hum)), hnm]
    refine ⟨h3, by simp only [hnR, hnl, Option.bind_eq_bind, Option.bind_some, e1, hm1, e2, e3], ?_⟩
    have hN : ∀ a, a ≠ lastId l P → a ≠ m.1 → a ≠ lastId o R → h3.nextOf a = h.nextOf a := by
      intro a h1 h2 h3
      rw [N3, upd_other _ _ h3, N2, upd_other _ _ h2, N1, upd_other _ _ h1]
    have nl : h3.nextOf (lastId l P) = some (some M0.1) := by
      rw [N3, upd_other _ _ (hdis _ _ hul huo), N2, upd_other _ _ (hdis _ _ hul hum), N1, upd_same]
    have nm : h3.nextOf m.1 = some (startOf (ids Q) none) := by
      rw [N3, upd_other _ _ (Ne.symm hRMm), N2, upd_same]
    have nR : h3.nextOf (lastId o R) = some (startOf (ids S) none) := by rw [N3, upd_same]
    have halll := r.nodupAll hl
    rw [ids, List.map_append, ← List.cons_append, List.nodup_append] at halll
    have hPm := List.mem_of_getLast? (lastId_getLast? l P)
    have useP : ∀ y ∈ l :: ids P, RelD.Uses l (P ++ Q) y := by
      intro y hy; rw [uses_append]; exact Or.inl (by simpa [RelD.Uses] using hy)
    have useQ : ∀ y ∈ ids Q, RelD.Uses l (P ++ Q) y := by
      intro y hy; rw [uses_append]; exact Or.inr hy
    have useR : ∀ y ∈ o :: ids R, RelD.Uses o (R ++ (M ++ S)) y := by
      intro y hy; rw [uses_append]; exact Or.inl (by simpa [RelD.Uses] using hy)
    have useM : ∀ y ∈ ids M, RelD.Uses o (R ++ (M ++ S)) y := by
      intro y hy; rw [uses_append]; exact Or.inr (by rw [ids, List.map_append, List.mem_append]; exact Or.inl hy)
    have useS : ∀ y ∈ ids S, RelD.Uses o (R ++ (M ++ S)) y := by
      intro y hy; rw [uses_append]; exact Or.inr (by rw [ids, List.map_append, List.mem_append]; exact Or.inr hy)
    have hMS := hallo.2.1
    rw [List.map_append, List.nodup_append] at hMS
    have hMM0 : ids M = M0.1 :: ids M1 := by rw [hMc]; rfl
    have hmid : m.1 ∈ ids M := List.mem_map_of_mem hmM
    have RM : ∀ y ∈ o :: ids R, ∀ z ∈ ids M, y ≠ z := fun y hy z hz =>
      hallo.2.2 y hy z (by rw [List.map_append, List.mem_append]; exact Or.inl hz)
    have RS : ∀ y ∈ o :: ids R, ∀ z ∈ ids S, y ≠ z := fun y hy z hz =>
      hallo.2.2 y hy z (by rw [List.map_append, List.mem_append]; exact Or.inr hz)
    refine r.upd2 hlo hl ho (by rw [n3, n2, n1]) (by rw [v3, v2, v1]) ?_ ?_ ?_ ?_
    · rw [ids, List.map_append, path_append]
      refine ⟨?_, ?_⟩
      · refine path_retarget hpl.1 halll.1 (fun y hy hne => hN y hne ?_ ?_) ?_
        · exact hdis _ _ (useP y hy) hum
        · exact hdis _ _ (useP y hy) huo
        · rw [hMc]; exact nl
      · rw [hMc]
        show PathTo h3.nextOf M0.1 (List.map (·.1) (M1 ++ Q)) none
        rw [List.map_append, path_append]
        refine ⟨?_, ?_⟩
        · refine path_retarget hMp.1 ?_ (fun y hy hne => hN y ?_ ?_ ?_) ?_
          · have := hMS.1; rwa [hMc] at this
          · exact Ne.symm (hdis _ _ hul (useM y (by rw [hMM0]; exact hy)))
          · intro he; exact hne (by rw [he]; exact hlastM1.symm)
          · exact Ne.symm (RM _ hRm y (by rw [hMM0]; exact hy))
          · show h3.nextOf ((ids M1).getLastD M0.1) = _
            rw [hlastM1]; exact nm
        · refine tail_frame hpl.2 fun y hy => hN y ?_ ?_ ?_
          · exact fun he => halll.2.2 _ hPm y hy he.symm
          · exact hdis _ _ (useQ y hy) hum
          · exact hdis _ _ (useQ y hy) huo
    · rw [ids, List.map_append, path_append]
      refine ⟨?_, ?_⟩
      · refine path_retarget hpo.1 hallo.1 (fun y hy hne => hN y ?_ ?_ hne) nR
        · exact Ne.symm (hdis _ _ hul (useR y hy))
        · exact RM y hy m.1 hmid
      · refine tail_frame hMp.2 fun y hy => hN y ?_ ?_ ?_
        · exact Ne.symm (hdis _ _ hul (useS y hy))
        · exact fun he => hMS.2.2 m.1 hmid y hy he.symm
        · exact Ne.symm (RS _ hRm y hy)
    · intro a ha hb
      exact hN a (fun he => ha (he ▸ hul)) (fun he => hb (he ▸ hum)) (fun he => hb (he ▸ huo))
    · classical
      rw [List.perm_iff_count]
      intro a
      simp only [List.count_append]
      omega

theorem fswap_spec {h : FHeap V} {A : Abs V} {a b : Nat} {xs ys : List (Nat × V)} (r : FRel h A)
    (ha : A.lists a = some xs) (hb : A.lists b = some ys) :
    ∃ h', h.swap a b = some h' ∧ FRel h' ⟨upd (upd A.lists a (some ys)) b (some xs), A.next⟩ := by
  have pa := path_cons_tail.1 (r.path ha)
  have pb := path_cons_tail.1 (r.path hb)
  obtain ⟨h1, e1, n1, v1, N1⟩ := fsetNext_spec (h := h) (a := a) (b := startOf (ids ys) none) (r.usesVal ha (Or.inl rfl))
  obtain ⟨h2, e2, n2, v2, N2⟩ := fsetNext_spec (h := h1) (a := b) (b := startOf (ids xs) none)
    (by rw [v1]; exact r.usesVal hb (Or.inl rfl))
  refine ⟨h2, by rw [FHeap.swap]; simp only [pa.1, pb.1, Option.bind_eq_bind, Option.bind_some, e1, e2], ?_⟩
  by_cases hab : a = b
  · subst hab
    rw [ha] at hb
    injection hb with hb
    subst hb
    rw [upd_self ha, upd_self ha]
    have hN : h2.nextOf = h.nextOf := by
      rw [N2, N1, upd_upd]; exact upd_self pa.1
    have hV : h2.valOf = h.valOf := by rw [v2, v1]
    exact ⟨by rw [n2, n1, hV]; exact r.fresh, by rw [n2, n1]; exact r.same, by rw [hN]; exact r.path, r.nodup, r.apart,
      by rw [hV]; exact r.sent, by rw [hV]; exact r.node⟩
  · have hN : ∀ x, x ≠ a → x ≠ b → h2.nextOf x = h.nextOf x := by
      intro x h1 h2
      rw [N2, upd_other _ _ h2, N1, upd_other _ _ h1]
    refine r.upd2 (Ne.symm hab) hb ha (by rw [n2, n1]) (by rw [v2, v1]) ?_ ?_ ?_ ?_
    · rw [path_cons_tail]
      refine ⟨by rw [N2, upd_same], tail_frame pa.2 fun x hx => hN x (r.sentNe ha ha hx) (r.sentNe ha hb hx)⟩
    · rw [path_cons_tail]
      refine ⟨by rw [N2, upd_other _ _ hab, N1, upd_same], tail_frame pb.2 fun x hx => hN x (r.sentNe hb ha hx) (r.sentNe hb hb hx)⟩
    · intro x h1 h2
      exact hN x (fun he => h2 (Or.inl he)) (fun he => h1 (Or.inl he))
    · exact List.perm_append_comm

theorem fmakeList_spec {h : FHeap V} {A : Abs V} (r : FRel h A) :
    A.lists h.next = none ∧ FRel h.makeList ⟨upd A.lists A.next (some []), A.next + 1⟩ := by
  have hnone : A.lists h.next = none := by
    cases hc : A.lists h.next with
    | none => rfl
    | some xs => exact absurd (r.fresh _ (Nat.le_refl _)) (r.usesVal hc (Or.inl rfl))
  have hN : h.makeList.nextOf = upd h.nextOf h.next (some none) := falloc_next ..
  have hV : h.makeList.valOf = upd h.valOf h.next (some none) := falloc_val ..
  refine ⟨hnone, ?_⟩
  rw [r.same]
  have cs : ∀ {k xs}, upd A.lists h.next (some []) k = some xs → (k = h.next ∧ xs = []) ∨ (k ≠ h.next ∧ A.lists k = some xs) := by
    intro k xs hk
    by_cases hkn : k = h.next
    · subst hkn; simp only [upd_same, Option.some.injEq] at hk; exact Or.inl ⟨rfl, hk.symm⟩
    · simp only [upd_other _ _ hkn] at hk; exact Or.inr ⟨hkn, hk⟩
  refine ⟨?_, rfl, ?_, ?_, ?_, ?_, ?_⟩
  · intro a ha
    have ha' : h.next + 1 ≤ a := ha
    rw [hV, upd_other _ _ (by omega)]
    exact r.fresh a (by omega)
  · intro k xs hk
    rcases cs hk with ⟨rfl, rfl⟩ | ⟨hkn, hk⟩
    · show h.makeList.nextOf h.next = some none
      rw [hN, upd_same]
    · refine path_frame (r.path hk) fun x hx => ?_
      rw [hN, upd_other _ _]
      exact Nat.ne_of_lt (r.lt (r.usesVal hk (by simpa [RelD.Uses] using hx)))
  · intro k xs hk
    rcases cs hk with ⟨rfl, rfl⟩ | ⟨hkn, hk⟩
    · simp
    · exact r.nodup hk
  · intro k k' xs ys i hk hk' hi hi'
    rcases cs hk with ⟨rfl, rfl⟩ | ⟨hkn, hk⟩
    · simp at hi
    · rcases cs hk' with ⟨rfl, rfl⟩ | ⟨hkn', hk'⟩
      · simp at hi'
      · exact r.apart hk hk' hi hi'
  · intro a
    by_cases ha : a = h.next
    · subst ha; simp [hV, upd_same]
    · rw [hV, upd_other _ _ ha, r.sent]; simp [upd_other _ _ ha]
  · intro a v
    constructor
    · intro hv
      by_cases ha : a = h.next
      · subst ha; rw [hV, upd_same] at hv; simp at hv
      · rw [hV, upd_other _ _ ha, r.node] at hv
        obtain ⟨k, xs, hk, hm⟩ := hv
        refine ⟨k, xs, ?_, hm⟩
        have : k ≠ h.next := by rintro rfl; rw [hnone] at hk; cases hk
        simpa [upd_other _ _ this] using hk
    · rintro ⟨k, xs, hk, hm⟩
      rcases cs hk with ⟨rfl, rfl⟩ | ⟨hkn, hk⟩
      · simp at hm
      · have hv := r.node.2 ⟨k, xs, hk, hm⟩
        have : a ≠ h.next := by rintro rfl; rw [r.fresh _ (Nat.le_refl _)] at hv; cases hv
        rw [hV, upd_other _ _ this]; exact hv

/-- The end of the life of an empty list, whatever its link says. -/
theorem ffree_rel {h : FHeap V} {A : Abs V} {l : Nat} (r : FRel h A) (hl : A.lists l = some []) :
    FRel { h with cell := upd h.cell l none } ⟨upd A.lists l none, A.next⟩ := by
  have hN : (FHeap.mk (upd h.cell l none) h.next).nextOf = upd h.nextOf l none := ffree_next ..
  have hV : (FHeap.mk (upd h.cell l none) h.next).valOf = upd h.valOf l none := ffree_val ..
  have cs : ∀ {k xs}, upd A.lists l none k = some xs → k ≠ l ∧ A.lists k = some xs := by
    intro k xs hk
    by_cases hkl : k = l
    · subst hkl; simp [upd_same] at hk
    · simp only [upd_other _ _ hkl] at hk; exact ⟨hkl, hk⟩
  refine ⟨?_, r.same, ?_, ?_, ?_, ?_, ?_⟩
  · intro a ha
    rw [hV]
    by_cases hal : a = l
    · rw [hal, upd_same]
    · rw [upd_other _ _ hal]; exact r.fresh a ha
  · intro k xs hk
    obtain ⟨hkl, hk'⟩ := cs hk
    refine path_frame (r.path hk') fun x hx => ?_
    rw [hN, upd_other _ _]
    rintro rfl
    clear hk
    have hk := hk'
    exact r.usesApart hk hl (Ne.symm hkl) (by simpa [RelD.Uses] using hx) (Or.inl rfl)
  · intro k xs hk; exact r.nodup (cs hk).2
  · intro k k' xs ys i hk hk' hi hi'; exact r.apart (cs hk).2 (cs hk').2 hi hi'
  · intro a
    rw [hV]
    by_cases hal : a = l
    · subst hal; simp [upd_same]
    · rw [upd_other _ _ hal, r.sent]; simp [upd_other _ _ hal]
  · intro a v
    rw [hV]
    constructor
    · intro hv
      by_cases hal : a = l
      · subst hal; rw [upd_same] at hv; cases hv
      · rw [upd_other _ _ hal, r.node] at hv
        obtain ⟨k, xs, hk, hm⟩ := hv
        refine ⟨k, xs, ?_, hm⟩
        have : k ≠ l := by rintro rfl; rw [hl] at hk; injection hk with hk; subst hk; simp at hm
        simpa [upd_other _ _ this] using hk
    · rintro ⟨k, xs, hk, hm⟩
      obtain ⟨hkl, hk⟩ := cs hk
      have : a ≠ l := r.sentNe hk hl (mem_ids.2 ⟨v, hm⟩)
      rw [upd_other _ _ this]
      exact r.node.2 ⟨k, xs, hk, hm⟩

theorem ffreeList_spec {h : FHeap V} {A : Abs V} {l : Nat} (r : FRel h A) (hl : A.lists l = some []) :
    ∃ h', h.freeList l = some h' ∧ FRel h' ⟨upd A.lists l none, A.next⟩ := by
  obtain ⟨n, hc⟩ := fcell_of_val (r.sent.2 ⟨_, hl⟩)
  exact ⟨_, by rw [FHeap.freeList, hc], ffree_rel r hl⟩

theorem fsetVal_spec {h : FHeap V} {A : Abs V} {l i : Nat} {P Q : List (Nat × V)} {v w : V} (r : FRel h A)
    (hl : A.lists l = some (P ++ (i, v) :: Q)) :
    ∃ h', h.setVal i w = some h' ∧ h'.nextOf = h.nextOf ∧ h'.next = h.next ∧ FRel h' ⟨upd A.lists l (some (P ++ (i, w) :: Q)), A.next⟩ := by
  have hiv : h.valOf i = some (some v) := r.node.2 ⟨l, _, hl, by simp⟩
  obtain ⟨n, hc⟩ := fcell_of_val hiv
  have hN : (FHeap.mk (upd h.cell i (some ⟨n, some w⟩)) h.next).nextOf = h.nextOf := by
    rw [falloc_next]; exact upd_self (by simp [FHeap.nextOf, hc])
  have hV : (FHeap.mk (upd h.cell i (some ⟨n, some w⟩)) h.next).valOf = upd h.valOf i (some (some w)) := falloc_val ..
  refine ⟨⟨upd h.cell i (some ⟨n, some w⟩), h.next⟩, by rw [FHeap.setVal, hc], hN, rfl, ?_⟩
  have hid : ids (P ++ (i, w) :: Q) = ids (P ++ (i, v) :: Q) := by simp [ids]
  have hnd := r.nodup hl
  have hni : i ∉ ids (P ++ Q) := by
    have hp : (ids (P ++ (i, v) :: Q)).Perm (i :: ids (P ++ Q)) := by
      rw [ids, ids, List.map_append, List.map_append]
      exact List.perm_middle
    exact (List.nodup_cons.1 (hp.nodup_iff.1 hnd)).1
  rw [r.same]
  refine r.upd1 hl rfl ?_ (by rw [hid, hN]; exact r.path hl) (by rw [hid]; exact hnd) (fun a _ _ => by rw [hN]) ?_ ?_ ?_
  · intro a ha
    rw [hV]
    have : a ≠ i := by
      rintro rfl
      rw [r.fresh _ ha] at hiv; cases hiv
    rw [upd_other _ _ this]; exact r.fresh a ha
  · intro a
    rw [hV]
    by_cases hai : a = i
    · subst hai; rw [upd_same, hiv]; simp
    · rw [upd_other _ _ hai]
  · intro a u
    rw [hV]
    by_cases hai : a = i
    · subst hai
      rw [upd_same]
      constructor
      · intro hu; injection hu with hu; injection hu with hu; subst hu; exact Or.inl (by simp)
      · rintro (hm | ⟨_, hm⟩)
        · have : (a, u) ∈ P ++ Q ∨ u = w := by
            simp only [List.mem_append, List.mem_cons, Prod.mk.injEq, true_and] at hm ⊢
            tauto
          rcases this with hc | rfl
          · exact (hni (mem_ids.2 ⟨u, hc⟩)).elim
          · rfl
        · exact (hm (by simp [ids])).elim
    · rw [upd_other _ _ hai]
      have hm : (a, u) ∈ P ++ (i, w) :: Q ↔ (a, u) ∈ P ++ (i, v) :: Q := by simp [hai]
      rw [hm]
      constructor
      · intro hw
        by_cases hi : a ∈ ids (P ++ (i, v) :: Q)
        · obtain ⟨u', hu⟩ := mem_ids.1 hi
          rw [r.val_eq hl hu hw]
          exact Or.inl hu
        · exact Or.inr ⟨hw, hi⟩
      · rintro (hw | hw)
        · exact r.node.2 ⟨l, _, hl, hw⟩
        · exact hw.1
  · intro a ha
    exact Or.inl (hid ▸ ha)

theorem fwalk_spec {h : FHeap V} : ∀ {xs : List (Nat × V)} {n : Nat}, TailTo h.nextOf (ids xs) none →
    (∀ i v, (i, v) ∈ xs → h.valOf i = some (some v)) → xs.length < n → FHeap.walk n h (startOf (ids xs) none) = some (xs.map (·.2))
  | [], n + 1, _, _, _ => rfl
  | (i, v) :: xs, n + 1, ht, hv, hn => by
    obtain ⟨nx, hc⟩ := fcell_of_val (hv i v (by simp))
    have ht' := path_cons_tail.1 (show PathTo h.nextOf i (ids xs) none from ht)
    have hnx : nx = startOf (ids xs) none := by
      have := ht'.1
      simp [FHeap.nextOf, hc] at this
      exact this
    have ih := fwalk_spec (n := n) ht'.2 (fun i v hm => hv i v (by simp [hm])) (by simp at hn; omega)
    show FHeap.walk (n + 1) h (some i) = _
    rw [FHeap.walk, hc]
    simp only [hnx, ih, Option.map_some, List.map_cons]

theorem fforward_spec {h : FHeap V} {A : Abs V} {l : Nat} {xs : List (Nat × V)} (r : FRel h A) (hl : A.lists l = some xs) :
    h.forward l = some (xs.map (·.2)) := by
  have hp := path_cons_tail.1 (r.path hl)
  rw [FHeap.forward, hp.1]
  simp only [Option.bind_eq_bind, Option.bind_some]
  exact fwalk_spec hp.2 (fun i v hm => r.node.2 ⟨l, xs, hl, hm⟩) (Nat.lt_succ_of_le (r.length_le hl))

theorem fclearLoop_spec : ∀ {xs : List (Nat × V)} {n : Nat} {h : FHeap V} {A : Abs V} {l : Nat}, FRel h A → A.lists l = some xs →
    xs.length < n → ∃ h', FHeap.clearLoop n h l = some h' ∧ FRel h' ⟨upd A.lists l (some []), A.next⟩
  | [], n + 1, h, A, l, r, hl, _ => by
    have hp := path_cons_tail.1 (r.path hl)
    refine ⟨h, ?_, by rw [upd_self hl]; exact r⟩
    rw [FHeap.clearLoop, hp.1]
    rfl
  | x :: xs, n + 1, h, A, l, r, hl, hn => by
    have hp := path_cons_tail.1 (r.path hl)
    obtain ⟨h1, e1, r1⟩ := ferase_spec (P := []) r hl
    obtain ⟨h2, e2, r2⟩ := fclearLoop_spec (n := n) r1 (upd_same ..) (by simp at hn; simpa using by omega)
    refine ⟨h2, ?_, by simpa only [upd_upd] using r2⟩
    rw [FHeap.clearLoop, hp.1]
    simp only [Option.bind_eq_bind, Option.bind_some]
    show ((h.eraseAfter l).bind fun r => FHeap.clearLoop n r.1 l) = _
    have e1' : h.eraseAfter l = some (h1, startOf (ids xs) none) := e1
    rw [e1', Option.bind_some]
    exact e2

theorem fclear_spec {h : FHeap V} {A : Abs V} {l : Nat} {xs : List (Nat × V)} (r : FRel h A) (hl : A.lists l = some xs) :
    ∃ h', h.clear l = some h' ∧ FRel h' ⟨upd A.lists l (some []), A.next⟩ :=
  fclearLoop_spec r hl (Nat.lt_succ_of_le (r.length_le hl))

end Verif.Lists
