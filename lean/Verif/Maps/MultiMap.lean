import Verif.Maps.Upsert

/-!
# Sorted multimaps keep every element (C34)
-/

namespace Verif.Maps

open Verif.Algo Verif.Algo.Mem

variable {κ μ α : Type}

/-- What `std::inplace_merge` does: it merges sorted ranges, and of equivalent elements those of the first range come first. It changes nothing else. -/
def MergesBy (lt : α → α → Bool) (merge : Mem α → Nat → Nat → Nat → Option (Mem α)) : Prop :=
  ∀ (m : Mem α) (first : Nat) (r1 r2 : List α), Seg m first (r1 ++ r2) → Sorted lt r1 → Sorted lt r2 →
    ∃ m' ys, merge m first (first + r1.length) (first + r1.length + r2.length) = some m' ∧ Seg m' first ys ∧ IsStableSort lt (r1 ++ r2) ys ∧
      m.SameOff m' fun a => first ≤ a ∧ a < first + r1.length + r2.length

/-! ## Specification -/

/-- What the operations of a multimap do to its contents. A new element comes after those with the same key that are there already. The elements of a range come in any
order among themselves if their keys are the same. -/
def Cfg.MultiSpec (C : Cfg κ μ) (xs ys : List (κ × μ)) : MultiOp κ μ → Prop
  | .insert k v => IsStableSort C.elt (xs ++ [(k, v)]) ys
  | .insertRange init => ∃ init', init'.Perm init ∧ IsStableSort C.elt (xs ++ init') ys
  | .erase i => ∃ l x r, xs = l ++ x :: r ∧ l.length = i ∧ ys = l ++ r
  | .eraseRange i j => ∃ l x r, xs = l ++ x ++ r ∧ l.length = i ∧ l.length + x.length = j ∧ ys = l ++ r
  | .eraseIf p => ys = xs.filter fun x => !p x

/-- What a history may lead to. -/
def Cfg.MultiSpecRun (C : Cfg κ μ) (xs ys : List (κ × μ)) : List (MultiOp κ μ) → Prop
  | [] => ys = xs
  | op :: ops => ∃ zs, C.MultiSpec xs zs op ∧ C.MultiSpecRun zs ys ops

/-- When an operation can be used. -/
def Cfg.MultiPre (C : Cfg κ μ) (xs : List (κ × μ)) : MultiOp κ μ → Prop
  | .insert _ _ => xs.length < C.mx
  | .insertRange init => xs.length + init.length ≤ C.mx ∧ C.Sortable init
  | .erase i => i < xs.length
  | .eraseRange i j => i ≤ j ∧ j ≤ xs.length
  | .eraseIf _ => True

/-- When a history can be used: each operation in the state it meets. -/
def Cfg.MultiPreRun (C : Cfg κ μ) : List (κ × μ) → List (MultiOp κ μ) → Prop
  | _, [] => True
  | xs, op :: ops => C.MultiPre xs op ∧ ∀ ys, C.multiStep xs op = some ys → C.MultiPreRun ys ops

/-- The elements that a history of insertions inserts, in their order, except that those of a range are in any order. -/
def Inserted : List (MultiOp κ μ) → List (κ × μ) → Prop
  | [], log => log = []
  | .insert k v :: ops, log => ∃ rest, log = (k, v) :: rest ∧ Inserted ops rest
  | .insertRange init :: ops, log => ∃ init' rest, init'.Perm init ∧ log = init' ++ rest ∧ Inserted ops rest
  | _ :: _, _ => False

/-- No operation erases. -/
def OnlyInserts : List (MultiOp κ μ) → Prop
  | [] => True
  | .insert _ _ :: ops => OnlyInserts ops
  | .insertRange _ :: ops => OnlyInserts ops
  | _ :: _ => False

/-! ## Stable sorts -/

theorem stable_insert {lt : α → α → Bool} (h : StrictWeak lt) {xs : List α} {c : Nat} {e : α} (hs : Sorted lt xs) (h1 : ∀ x ∈ xs.take c, lt e x = false)
    (h2 : ∀ x ∈ xs.drop c, lt e x = true) : IsStableSort lt (xs ++ [e]) (xs.take c ++ e :: xs.drop c) := by
  have h3 := hs
  rw [Sorted, ← List.take_append_drop c xs, List.pairwise_append] at h3
  refine ⟨?_, ?_, fun x => ?_⟩
  · refine List.pairwise_append.2 ⟨h3.1, List.pairwise_cons.2 ⟨fun y hy => h.asymm (h2 y hy), h3.2.1⟩, fun x hx y hy => ?_⟩
    rcases List.mem_cons.1 hy with rfl | hy
    · exact h1 x hx
    · exact h3.2.2 x hx y hy
  · refine List.perm_middle.trans ?_
    rw [List.take_append_drop]
    exact (List.perm_append_singleton e xs).symm
  · conv => rhs; rw [← List.take_append_drop c xs]
    simp only [List.filter_append, List.append_assoc]
    congr 1
    cases he : equiv lt x e with
    | false => simp [he]
    | true =>
      have : (xs.drop c).filter (equiv lt x) = [] := by
        rw [List.filter_eq_nil_iff]
        intro y hy hxy
        have h4 := h2 y hy
        obtain ⟨h5, h6⟩ := equiv_iff.1 he
        obtain ⟨h7, h8⟩ := equiv_iff.1 hxy
        have := h.negTrans h7 h6
        rw [h4] at this; cases this
      simp [he, this]

theorem _root_.Verif.Algo.IsStableSort.append_trans {lt : α → α → Bool} {xs ys zs ws : List α} (h : IsStableSort lt xs ys) (h' : IsStableSort lt (ys ++ zs) ws) :
    IsStableSort lt (xs ++ zs) ws :=
  ⟨h'.sorted, h'.perm.trans (h.perm.append_right _), fun x => by rw [h'.stable x, List.filter_append, List.filter_append, h.stable x]⟩

/-! ## The operations -/

/-- `insert` of one element: it goes after the elements with the same key, and its position is returned. -/
theorem C34_insert {C : Cfg κ μ} (h : StrictWeak C.lt) {xs : List (κ × μ)} (hs : Sorted C.elt xs) (k : κ) (v : μ) (hroom : xs.length < C.mx) :
    ∃ ys i, C.lazyInsertMulti xs k v = some (ys, i) ∧ IsStableSort C.elt (xs ++ [(k, v)]) ys ∧ ys[i]? = some (k, v) := by
  obtain ⟨ht, hd⟩ := upper_take h hs k
  have e := keyedUpperBound_eq h hs k
  have hle : (xs.countP fun e => !C.lt k e.1) ≤ xs.length := List.countP_le_length
  generalize (xs.countP fun e => !C.lt k e.1) = c at *
  refine ⟨xs.take c ++ (k, v) :: xs.drop c, c, ?_, stable_insert (h.comap _) hs ht hd, ?_⟩
  · rw [Cfg.lazyInsertMulti, e]
    simp only [Option.bind_eq_bind, Option.bind_some]
    rw [Cfg.insertAt, if_pos (by omega)]; rfl
  · rw [List.getElem?_append_right (by rw [List.length_take]; omega), List.length_take, show c - min c xs.length = 0 by omega]; rfl

/-- `insert` of a range: every element is added, after those with the same key that are there already. Missing: the ranges of more than 128 elements with keys of more than one
byte that `ska_sort` does not sort, see C42. -/
theorem C34_insert_range_partial {C : Cfg κ μ} (h : C.Ok) (hm : MergesBy C.elt C.merge) {xs init : List (κ × μ)} (hs : Sorted C.elt xs)
    (hroom : xs.length + init.length ≤ C.mx) (hn : C.Sortable init) :
    ∃ ys init', C.insertRange true xs init = some ys ∧ init'.Perm init ∧ IsStableSort C.elt (xs ++ init') ys := by
  obtain ⟨init', e, so⟩ := h.sortFrom (xs := xs) hn
  obtain ⟨m', ys, e2, s, st, -⟩ := hm (memOf (xs ++ init')) 0 xs init' (memOf_seg _) hs so.sorted
  refine ⟨ys, init', ?_, so.perm, st⟩
  rw [Cfg.insertRange, Cfg.append, if_pos hroom]
  simp only [Option.bind_eq_bind, Option.bind_some]
  rw [Cfg.mergeSortedAndUnsorted, e]
  simp only [Option.bind_eq_bind, Option.bind_some, if_true]
  rw [Nat.zero_add, ← List.length_append] at e2
  rw [e2, Option.bind_some, ← st.perm.length_eq]
  exact readBack_seg s

/-- A multimap made from a range has all elements of it, in order. -/
theorem C34_construct_partial {C : Cfg κ μ} (h : C.Ok) {source : List (κ × μ)} (hroom : source.length ≤ C.mx) (hn : C.Sortable source) :
    ∃ ys, C.construct true source = some ys ∧ IsSort C.elt source ys := by
  obtain ⟨ys, e, so⟩ := h.sortFrom (xs := []) hn
  rw [List.nil_append, List.nil_append, List.length_nil] at e
  refine ⟨ys, ?_, so⟩
  rw [Cfg.construct, Cfg.append, if_pos (by simpa using hroom)]
  exact e

/-- Whatever the elements, a multimap made from a range has all of them and no others. -/
theorem C34_construct_elements {C : Cfg κ μ} (h : C.Ok) {source : List (κ × μ)} (hroom : source.length ≤ C.mx) :
    ∃ ys, C.construct true source = some ys ∧ ys.Perm source := by
  obtain ⟨m', ys, e, e1, s1, p1, -⟩ := C42_permutation h.wf h.nonEmpty h.std (memOf_seg source)
  refine ⟨ys, ?_, p1⟩
  rw [Cfg.construct, Cfg.append, if_pos (by simpa using hroom)]
  simp only [Option.bind_eq_bind, Option.bind_some, if_true, List.nil_append]
  rw [Cfg.sortFrom, Nat.sub_zero, e1]
  simp only [Option.bind_eq_bind, Option.bind_some]
  rw [← p1.length_eq]
  exact readBack_seg s1

theorem construct_of_sortFrom {C : Cfg κ μ} {source ys : List (κ × μ)} (hroom : source.length ≤ C.mx) (h : C.sortFrom source 0 = some ys) : C.construct true source = some ys := by
  rw [Cfg.construct, Cfg.append, if_pos (by simpa using hroom)]
  exact h

set_option maxRecDepth 100000 in
theorem badPairs_eq : badPairs = (1, 0) :: (0, 0) :: badPairs.drop 2 ∧ badPairs.length = 129 ∧
    equalRange (memOf badPairs) (fun e k => decide (e.1 % 65536 < k % 65536)) (fun k e => decide (k % 65536 < e.1 % 65536)) 0 badPairs.length 1 = some (2, 2) := by decide +kernel

/-- But one made from more than 128 elements can be unsorted, and then does not find its elements: here there is an element with the key 1, but the range of those is empty. -/
theorem C34_many_violated (std : Mem (Nat × Nat) → Nat → Nat → Option (Mem (Nat × Nat))) :
    (exCfg std 1000 .keep).construct true badPairs = some badPairs ∧ (1, 0) ∈ badPairs ∧ (exCfg std 1000 .keep).keyedEqualRange badPairs 1 = some (2, 2) ∧
    ¬Sorted (exCfg std 1000 .keep).elt badPairs := by
  obtain ⟨e1, e2, e3⟩ := badPairs_eq
  have e4 := sortFrom_badPairs std .keep
  generalize badPairs = bs at *
  refine ⟨construct_of_sortFrom (by rw [e2]; exact (by decide : 129 ≤ 1000)) e4, by rw [e1]; exact List.mem_cons_self .., e3, fun h => ?_⟩
  rw [e1] at h
  have := (List.pairwise_cons.1 h).1 (0, 0) (List.mem_cons_self ..)
  simp [Cfg.elt, exCfg] at this

/-- `keyed_equal_range` gives exactly the elements with the key. -/
theorem C34_equal_range {C : Cfg κ μ} (h : StrictWeak C.lt) {xs : List (κ × μ)} (hs : Sorted C.elt xs) (k : κ) :
    ∃ lo hi, C.keyedEqualRange xs k = some (lo, hi) ∧ lo ≤ hi ∧ hi ≤ xs.length ∧ ∀ i (hi' : i < xs.length), lo ≤ i ∧ i < hi ↔ C.Same xs[i].1 k := by
  cases xs with
  | nil => exact ⟨0, 0, by simp [Cfg.keyedEqualRange, equalRange, lowerBound, upperBound, partitionPoint, partitionPointLoop], by simp, by simp, fun i hi => by simp at hi⟩
  | cons e es =>
    have e1 := keyedLowerBound_eq h hs k
    have hp1 := partitioned_lt h hs k
    have hp2 := partitioned_le h hs k
    generalize hX : e :: es = xs at *
    have hle : (xs.countP fun e => C.lt e.1 k) ≤ (xs.countP fun e => !C.lt k e.1) := List.countP_mono_left fun x _ hx => by
      simp only [Bool.not_eq_true']; exact h.asymm hx
    have hle2 : (xs.countP fun e => !C.lt k e.1) ≤ xs.length := List.countP_le_length
    have e2 : upperBound (memOf xs) (fun k e => C.lt k e.1) (xs.countP fun e => C.lt e.1 k) xs.length k = some (xs.countP fun e => !C.lt k e.1) := by
      have hd : Seg (memOf xs) (xs.countP fun e => C.lt e.1 k) (xs.drop (xs.countP fun e => C.lt e.1 k)) := by
        intro i hi
        rw [memOf, List.getElem_drop, List.getElem?_eq_getElem]
      have := C36_partition_point (p := fun e => !C.lt k e.1) hd (by unfold Partitioned at hp2 ⊢; exact List.Pairwise.sublist (List.drop_sublist _ _) hp2)
      rw [List.length_drop, show (xs.countP fun e => C.lt e.1 k) + (xs.length - (xs.countP fun e => C.lt e.1 k)) = xs.length by omega] at this
      rw [upperBound, this]
      have hsum : (xs.countP fun e => !C.lt k e.1) = (xs.take (xs.countP fun e => C.lt e.1 k)).countP (fun e => !C.lt k e.1) +
          (xs.drop (xs.countP fun e => C.lt e.1 k)).countP (fun e => !C.lt k e.1) := by
        rw [← List.countP_append, List.take_append_drop]
      have hall : (xs.take (xs.countP fun e => C.lt e.1 k)).countP (fun e => !C.lt k e.1) = xs.countP fun e => C.lt e.1 k := by
        rw [List.countP_eq_length.2, List.length_take]
        · omega
        · intro x hx
          obtain ⟨i, hi, rfl⟩ := List.mem_take_iff_getElem.1 hx
          have := (hp1.getElem_iff (i := i) (by omega)).2 (by omega)
          simp only [Bool.not_eq_true']; exact h.asymm this
      rw [hall] at hsum
      rw [hsum]
    have e1' : lowerBound (memOf xs) (fun e k => C.lt e.1 k) 0 xs.length k = some (xs.countP fun e => C.lt e.1 k) := e1
    refine ⟨_, _, by rw [Cfg.keyedEqualRange, equalRange, e1']; simp only [Option.bind_eq_bind, Option.bind_some]; rw [e2]; rfl, hle, hle2, fun i hi => ?_⟩
    have h1 := hp1.getElem_iff hi
    have h2 := hp2.getElem_iff hi
    simp only [Bool.not_eq_true'] at h2
    rw [Cfg.Same, ← Bool.not_eq_true, h1, h2]
    omega

/-! ## Histories -/

theorem Cfg.Ok.multiStep {C : Cfg κ μ} (h : C.Ok) (hm : MergesBy C.elt C.merge) {xs : List (κ × μ)} (hs : Sorted C.elt xs) (op : MultiOp κ μ) (hp : C.MultiPre xs op) :
    ∃ ys, C.multiStep xs op = some ys ∧ Sorted C.elt ys ∧ C.MultiSpec xs ys op := by
  cases op with
  | insert k v =>
    obtain ⟨ys, i, e, st, -⟩ := C34_insert h.order hs k v hp
    exact ⟨ys, by rw [Cfg.multiStep, e]; rfl, st.sorted, st⟩
  | insertRange init =>
    obtain ⟨ys, init', e, hperm, st⟩ := C34_insert_range_partial h hm hs hp.1 hp.2
    exact ⟨ys, e, st.sorted, init', hperm, st⟩
  | erase i =>
    have hi : i < xs.length := hp
    refine ⟨xs.eraseIdx i, if_pos hi, hs.sublist (List.eraseIdx_sublist _ _), xs.take i, xs[i], xs.drop (i + 1), ?_, ?_, List.eraseIdx_eq_take_drop_succ _ _⟩
    · rw [← List.drop_eq_getElem_cons hi, List.take_append_drop]
    · rw [List.length_take]; omega
  | eraseRange i j =>
    obtain ⟨hij, hj⟩ : i ≤ j ∧ j ≤ xs.length := hp
    have hsplit : xs = xs.take i ++ (xs.take j).drop i ++ xs.drop j := by
      have h1 : xs.take i = (xs.take j).take i := by rw [List.take_take, Nat.min_eq_left hij]
      rw [h1, List.take_append_drop, List.take_append_drop]
    refine ⟨xs.take i ++ xs.drop j, if_pos ⟨hij, hj⟩, ?_, xs.take i, (xs.take j).drop i, xs.drop j, hsplit, ?_, ?_, rfl⟩
    · refine hs.sublist ?_
      conv => rhs; rw [hsplit]
      rw [List.append_assoc]
      exact (List.Sublist.refl _).append (List.sublist_append_right _ _)
    · rw [List.length_take]; omega
    · simp only [List.length_take, List.length_drop]; omega
  | eraseIf p => exact ⟨_, rfl, hs.sublist List.filter_sublist, rfl⟩

/-- Any history of a multimap does what it should, and the contents are sorted by key at its end. Missing: as for `C34_insert_range_partial`. -/
theorem C34_history_partial {C : Cfg κ μ} (h : C.Ok) (hm : MergesBy C.elt C.merge) : ∀ (ops : List (MultiOp κ μ)) {xs : List (κ × μ)}, Sorted C.elt xs → C.MultiPreRun xs ops →
    ∃ ys, C.multiRun xs ops = some ys ∧ C.MultiSpecRun xs ys ops ∧ Sorted C.elt ys
  | [], xs, hs, _ => ⟨xs, rfl, rfl, hs⟩
  | op :: ops, xs, hs, hp => by
    obtain ⟨ys, e, h1, h2⟩ := h.multiStep hm hs op hp.1
    obtain ⟨zs, e2, h3, h4⟩ := C34_history_partial h hm ops h1 (hp.2 ys e)
    refine ⟨zs, ?_, ⟨ys, h2, h3⟩, h4⟩
    rw [Cfg.multiRun, e]
    exact e2

theorem specRun_inserted {C : Cfg κ μ} : ∀ (ops : List (MultiOp κ μ)) {xs ys base : List (κ × μ)}, OnlyInserts ops → IsStableSort C.elt base xs → C.MultiSpecRun xs ys ops →
    ∃ log, Inserted ops log ∧ IsStableSort C.elt (base ++ log) ys
  | [], xs, ys, base, _, hb, hr => by
    have hr : ys = xs := hr
    subst hr
    exact ⟨[], rfl, by rwa [List.append_nil]⟩
  | .insert k v :: ops, xs, ys, base, ho, hb, ⟨zs, h1, h2⟩ => by
    obtain ⟨log, h3, h4⟩ := specRun_inserted ops (base := base ++ [(k, v)]) ho (hb.append_trans h1) h2
    exact ⟨(k, v) :: log, ⟨log, rfl, h3⟩, by rw [List.append_assoc] at h4; exact h4⟩
  | .insertRange init :: ops, xs, ys, base, ho, hb, ⟨zs, ⟨init', hp, h1⟩, h2⟩ => by
    obtain ⟨log, h3, h4⟩ := specRun_inserted ops (base := base ++ init') ho (hb.append_trans h1) h2
    exact ⟨init' ++ log, ⟨init', log, hp, rfl, h3⟩, by rw [List.append_assoc] at h4; exact h4⟩
  | .erase _ :: _, _, _, _, ho, _, _ => ho.elim
  | .eraseRange _ _ :: _, _, _, _, ho, _, _ => ho.elim
  | .eraseIf _ :: _, _, _, _, ho, _, _ => ho.elim

/-- After any history of insertions into an empty multimap it has exactly the inserted elements, sorted by key, and those with the same key in the order in which they were
inserted, except within one range. -/
theorem C34_inserted_partial {C : Cfg κ μ} (h : C.Ok) (hm : MergesBy C.elt C.merge) (ops : List (MultiOp κ μ)) (ho : OnlyInserts ops) (hp : C.MultiPreRun [] ops) :
    ∃ ys log, C.multiRun [] ops = some ys ∧ Inserted ops log ∧ IsStableSort C.elt log ys := by
  obtain ⟨ys, e, hr, -⟩ := C34_history_partial h hm ops (xs := []) List.Pairwise.nil hp
  obtain ⟨log, h1, h2⟩ := specRun_inserted ops (base := []) ho ⟨List.Pairwise.nil, .refl _, fun _ => rfl⟩ hr
  exact ⟨ys, log, e, h1, h2⟩

/-! ## Examples -/

/-- A merge like the standard library's, for the examples. -/
def refMerge (lt : α → α → Bool) (m : Mem α) (first _middle last : Nat) : Option (Mem α) := refSort lt m first (last - first)

theorem refMerge_merges {lt : α → α → Bool} (h : StrictWeak lt) : MergesBy lt (refMerge lt) := by
  intro m first r1 r2 hs h1 h2
  have hlen : (r1 ++ r2).length = first + r1.length + r2.length - first := by rw [List.length_append]; omega
  have hp : ((r1 ++ r2).mergeSort fun x y => !lt y x).Perm (r1 ++ r2) := List.mergeSort_perm _ _
  have htrans : ∀ a b c : α, (!lt b a) = true → (!lt c b) = true → (!lt c a) = true := fun a b c h1 h2 => by
    simp only [Bool.not_eq_true'] at *; exact h.negTrans h1 h2
  have htot : ∀ a b : α, (!lt b a || !lt a b) = true := fun a b => by
    cases h1 : lt b a with
    | false => rfl
    | true => simp [h.asymm h1]
  refine ⟨_, (r1 ++ r2).mergeSort fun x y => !lt y x, by rw [refMerge, ← hlen, refSort, mapM_seg hs]; rfl, ?_, ⟨?_, hp, fun x => ?_⟩, fun a ha => ?_⟩
  · intro i hi
    have := hp.length_eq
    dsimp only
    rw [if_pos (by omega), show first + i - first = i by omega, List.getElem?_eq_getElem hi]
  · exact (List.pairwise_mergeSort htrans htot (r1 ++ r2)).imp fun hab => by simpa using hab
  · have hsub : ((r1 ++ r2).filter (equiv lt x)).Sublist (((r1 ++ r2).mergeSort fun x y => !lt y x).filter (equiv lt x)) := by
      have hpw : ((r1 ++ r2).filter (equiv lt x)).Pairwise fun a b => (!lt b a) = true := by
        refine List.pairwise_of_forall_mem_list fun a ha b hb => ?_
        obtain ⟨-, ha⟩ := List.mem_filter.1 ha
        obtain ⟨-, hb⟩ := List.mem_filter.1 hb
        obtain ⟨h3, h4⟩ := equiv_iff.1 ha
        obtain ⟨h5, h6⟩ := equiv_iff.1 hb
        simp only [Bool.not_eq_true']
        exact h.negTrans h3 h6
      have := List.sublist_mergeSort htrans htot hpw (List.filter_sublist (l := r1 ++ r2))
      have h2 := this.filter (equiv lt x)
      rwa [List.filter_filter, show (fun a => equiv lt x a && equiv lt x a) = equiv lt x by funext a; simp] at h2
    exact (hsub.eq_of_length (by rw [(hp.filter _).length_eq])).symm
  · exact if_neg fun hc => ha ⟨hc.1, by rw [List.length_append] at hlen hc; omega⟩

/-- A multimap from numbers of two bytes to numbers. -/
def exMulti (mx : Nat) : Cfg Nat Nat :=
  { exCfg (refSort fun x y => decide (x.1 % 65536 < y.1 % 65536)) mx .clear with merge := refMerge fun x y => decide (x.1 % 65536 < y.1 % 65536) }

/-- The hypotheses of `C34_inserted_partial` can be met. -/
example : (exMulti 100).Ok ∧ MergesBy (exMulti 100).elt (exMulti 100).merge ∧ OnlyInserts (κ := Nat) (μ := Nat) [.insert 3 1, .insertRange [(3, 2)], .insert 1 0] ∧
    (exMulti 100).MultiPreRun [] [.insert 3 1] := by
  have h := exCfg_ok exStd_sorts 100 .clear
  exact ⟨⟨h.order, h.eq, h.desc, h.wf, h.nonEmpty, h.plain, h.std⟩, refMerge_merges h.elt_order, trivial, ⟨show 0 < 100 by decide, fun _ _ => trivial⟩⟩

example : (exMulti 100).lazyInsertMulti [(1, 0), (3, 1), (4, 0)] 3 2 = some ([(1, 0), (3, 1), (3, 2), (4, 0)], 2) := by decide +kernel
example : (exMulti 100).keyedEqualRange [(1, 0), (3, 1), (3, 2), (4, 0)] 3 = some (1, 3) := by decide +kernel

end Verif.Maps
