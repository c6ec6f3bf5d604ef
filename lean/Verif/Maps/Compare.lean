import Verif.Maps.Keyed
import Verif.Views.Compare

/-!
# Comparing maps (C97)

Both kinds of maps compare by the elements in the order in which they are stored (`flat_map.cpp` 112, `linear_map.cpp` 43, `lexicographical_comparison::base`).
-/

namespace Verif.Maps

open Verif.Algo Verif.Views

variable {κ μ : Type}

/-! ## Model -/

/-- `operator==` of `map_value_type` (`map_value_type.cpp` 22, defaulted): the keys, then the mapped values. -/
def elementEq [DecidableEq κ] [DecidableEq μ] (x y : κ × μ) : Bool := decide (x.1 = y.1) && decide (x.2 = y.2)

/-- `operator<=>` of `map_value_type` (`map_value_type.cpp` 22, defaulted). -/
def elementCompare (ck : κ → κ → POrd) (cm : μ → μ → POrd) (x y : κ × μ) : POrd :=
  if ck x.1 y.1 ≠ .equal then ck x.1 y.1 else cm x.2 y.2

/-- The elements of a map as a range (`flat_map.cpp` 218-226, `linear_map.cpp` 115-123). -/
def mapRange (xs : List (κ × μ)) : Views.Range Nat (κ × μ) where
  ops := (memRange (memOf xs) 0 xs.length).toRng
  first := 0
  size? := some xs.length

/-- `operator==` of maps (`compare_container.cpp` 37-40). -/
def mapEqual [DecidableEq κ] [DecidableEq μ] (xs ys : List (κ × μ)) : Option (Res Bool) :=
  Views.equal (mapRange xs) (mapRange ys) elementEq (xs.length + 1)

/-- `operator<=>` of maps (`compare_container.cpp` 33-36). -/
def mapCompare (ck : κ → κ → POrd) (cm : μ → μ → POrd) (xs ys : List (κ × μ)) : Option (Res POrd) :=
  lexCompare (mapRange xs) (mapRange ys) (elementCompare ck cm) (xs.length + 1)

/-! ## The theorems -/

theorem mapRange_is (xs : List (κ × μ)) : (mapRange xs).Is xs := by
  have := (memRange_indexed (memOf_seg xs)).toPositions.visits
  rw [Nat.zero_add] at this
  exact ⟨this, fun n hn => by simp only [mapRange, Option.some.injEq] at hn; omega⟩

/-- Maps are equal exactly if they have the same elements in the same order. -/
theorem mapEqual_eq [DecidableEq κ] [DecidableEq μ] (xs ys : List (κ × μ)) : mapEqual xs ys = some (.ok (decide (xs = ys))) := by
  have : (elementEq : κ × μ → κ × μ → Bool) = fun x y => decide (x = y) := by
    funext x y
    obtain ⟨a, b⟩ := x
    obtain ⟨c, d⟩ := y
    simp [elementEq, Bool.decide_and]
  rw [mapEqual, this]
  exact C47_equal_eq (mapRange_is xs) (mapRange_is ys) (Nat.lt_succ_self _)

/-- Two increasing lists with the same elements are the same. -/
theorem increasing_ext {C : Cfg κ μ} (h : StrictWeak C.lt) : ∀ {xs ys : List (κ × μ)}, xs.Pairwise (fun x y => C.lt x.1 y.1 = true) →
    ys.Pairwise (fun x y => C.lt x.1 y.1 = true) → (∀ e, e ∈ xs ↔ e ∈ ys) → xs = ys := by
  intro xs ys hx hy he
  have hn : ∀ {zs : List (κ × μ)}, zs.Pairwise (fun x y => C.lt x.1 y.1 = true) → zs.Nodup := fun hz =>
    hz.imp fun {a b} hab heq => by rw [heq, h.irrefl] at hab; cases hab
  have hp : xs.Perm ys := (List.perm_ext_iff_of_nodup (hn hx) (hn hy)).2 he
  refine hp.eq_of_pairwise (fun a b _ _ hab hba => ?_) hx hy
  rw [h.asymm hab] at hba; cases hba

/-- Sorted maps are equal exactly if they have the same set of elements. -/
theorem C97_flat_map_equal [DecidableEq κ] [DecidableEq μ] {C : Cfg κ μ} (h : StrictWeak C.lt) {S T : κ × μ → Prop} {xs ys : List (κ × μ)}
    (hx : C.Lists S xs) (hy : C.Lists T ys) : ∃ b, mapEqual xs ys = some (.ok b) ∧ (b = true ↔ ∀ e, S e ↔ T e) := by
  refine ⟨_, mapEqual_eq xs ys, ?_⟩
  rw [decide_eq_true_iff]
  constructor
  · rintro rfl e
    rw [← hx.mem, ← hy.mem]
  · intro he
    exact increasing_ext h hx.increasing hy.increasing fun e => by rw [hx.mem, hy.mem, he]

/-- If keys that the order does not tell apart are the same, sorted maps are equal exactly if they map the same keys to the same values, whatever
histories led to them. -/
theorem C97_flat_map_history [DecidableEq κ] [DecidableEq μ] {C : Cfg κ μ} (h : StrictWeak C.lt) (ht : ∀ k k', C.Same k k' → k = k')
    {ops ops' : List (KOp κ μ)} (hr : (AMap.empty : AMap κ μ).Room C.same C.mx ops) (hr' : (AMap.empty : AMap κ μ).Room C.same C.mx ops') :
    ∃ xs ys b, (krun C.kstep [] ops).map (·.1) = some xs ∧ (krun C.kstep [] ops').map (·.1) = some ys ∧ mapEqual xs ys = some (.ok b) ∧
      (b = true ↔ ∀ k, ((AMap.empty : AMap κ μ).run C.same ops).1.get k = ((AMap.empty : AMap κ μ).run C.same ops').1.get k) := by
  obtain ⟨xs, e, r⟩ := C71_flat_map h ops (T := AMap.empty) ⟨List.Pairwise.nil, Reps.empty _⟩ hr
  obtain ⟨ys, e', r'⟩ := C71_flat_map h ops' (T := AMap.empty) ⟨List.Pairwise.nil, Reps.empty _⟩ hr'
  refine ⟨xs, ys, _, by rw [e]; rfl, by rw [e']; rfl, mapEqual_eq xs ys, ?_⟩
  rw [decide_eq_true_iff]
  have hs : ∀ k k', C.same k k' = true ↔ k = k' := fun k k' => by
    rw [Cfg.sameKey_iff]
    exact ⟨ht k k', fun e => e ▸ Cfg.Same.refl h k⟩
  have hm : ∀ {T : AMap κ μ} {zs : List (κ × μ)}, Reps C.same T zs → ∀ k v, (k, v) ∈ zs ↔ T.get k = some v := fun hz k v => by
    rw [hz.get]
    constructor
    · exact fun hk => ⟨_, hk, (hs _ _).2 rfl, rfl⟩
    · rintro ⟨⟨k', v'⟩, he, h1, h2⟩
      cases (hs _ _).1 h1
      cases h2
      exact he
  constructor
  · rintro rfl k
    exact Option.ext fun v => by rw [← hm r.reps, ← hm r'.reps]
  · intro hk
    refine increasing_ext h r.increasing r'.increasing fun ⟨k, v⟩ => ?_
    rw [hm r.reps, hm r'.reps, hk]

/-- Linear maps are equal exactly if they map the same keys to the same values and their keys came in the same order. -/
theorem C97_linear_map_partial [DecidableEq κ] [DecidableEq μ] {L : Lin κ} (hL : ∀ k k', L.eq k k' = true ↔ k = k')
    {ops ops' : List (KOp κ μ)} (hr : (AMap.empty : AMap κ μ).Room L.eq L.mx ops) (hr' : (AMap.empty : AMap κ μ).Room L.eq L.mx ops') :
    ∃ xs ys b, (krun L.kstep [] ops).map (·.1) = some xs ∧ (krun L.kstep [] ops').map (·.1) = some ys ∧ mapEqual xs ys = some (.ok b) ∧
      (b = true ↔ (∀ k, ((AMap.empty : AMap κ μ).run L.eq ops).1.get k = ((AMap.empty : AMap κ μ).run L.eq ops').1.get k) ∧
        xs.map (·.1) = ys.map (·.1)) := by
  have heq : Equivalence' L.eq := ⟨fun a => (hL a a).2 rfl, fun a b h => (hL _ _).2 ((hL _ _).1 h).symm,
    fun a b c h h' => (hL _ _).2 (((hL _ _).1 h).trans ((hL _ _).1 h'))⟩
  obtain ⟨xs, e, r⟩ := C71_linear_map heq ops (T := AMap.empty) (Reps.empty _) hr
  obtain ⟨ys, e', r'⟩ := C71_linear_map heq ops' (T := AMap.empty) (Reps.empty _) hr'
  refine ⟨xs, ys, _, by rw [e]; rfl, by rw [e']; rfl, mapEqual_eq xs ys, ?_⟩
  rw [decide_eq_true_iff]
  have hm : ∀ {T : AMap κ μ} {zs : List (κ × μ)}, Reps L.eq T zs → ∀ k v, (k, v) ∈ zs ↔ T.get k = some v := fun hz k v => by
    rw [hz.get]
    constructor
    · exact fun hk => ⟨_, hk, (hL _ _).2 rfl, rfl⟩
    · rintro ⟨⟨k', v'⟩, he, h1, h2⟩
      cases (hL _ _).1 h1
      cases h2
      exact he
  constructor
  · rintro rfl
    exact ⟨fun k => Option.ext fun v => by rw [← hm r, ← hm r'], rfl⟩
  · rintro ⟨hk, hkeys⟩
    apply List.ext_getElem?
    intro i
    have hi := congrArg (fun l => l[i]?) hkeys
    simp only [List.getElem?_map] at hi
    cases hx : xs[i]? with
    | none => rw [hx] at hi; cases hy : ys[i]? with
      | none => rfl
      | some y => rw [hy] at hi; cases hi
    | some x =>
      cases hy : ys[i]? with
      | none => rw [hx, hy] at hi; cases hi
      | some y =>
        rw [hx, hy] at hi
        obtain ⟨a, b⟩ := x
        obtain ⟨c, d⟩ := y
        simp only [Option.map_some, Option.some.injEq] at hi
        subst hi
        have h1 := (hm r a b).1 (List.mem_of_getElem? hx)
        have h2 := (hm r' a d).1 (List.mem_of_getElem? hy)
        rw [hk, h2] at h1
        cases h1; rfl

/-- `operator<=>` of maps is the dictionary order of the elements and consistent with `operator==`, if that is so for keys and mapped values. -/
theorem C97_order [DecidableEq κ] [DecidableEq μ] {ck : κ → κ → POrd} {cm : μ → μ → POrd} (hk : ∀ a b, ck a b = .equal ↔ a = b) (hm : ∀ a b, cm a b = .equal ↔ a = b)
    (sk : ∀ a b, ck b a = (ck a b).swap) (sm : ∀ a b, cm b a = (cm a b).swap) (xs ys : List (κ × μ)) :
    ∃ c, mapCompare ck cm xs ys = some (.ok c) ∧ LexIs (elementCompare ck cm) xs ys c ∧ mapCompare ck cm ys xs = some (.ok c.swap) ∧
      mapEqual xs ys = some (.ok (decide (c = .equal))) := by
  obtain ⟨c, e, l⟩ := C47_lexicographical_compare (mapRange_is xs) (mapRange_is ys) (elementCompare ck cm) (Nat.lt_succ_self xs.length)
  obtain ⟨d, e', l'⟩ := C47_lexicographical_compare (mapRange_is ys) (mapRange_is xs) (elementCompare ck cm) (Nat.lt_succ_self ys.length)
  have sw : ∀ x y : κ × μ, elementCompare ck cm y x = (elementCompare ck cm x y).swap := by
    intro x y
    simp only [elementCompare]
    rw [sk x.1 y.1, sm x.2 y.2]
    cases ck x.1 y.1 <;> simp [POrd.swap]
  have hd := (C47_antisymmetric sw l).unique l'
  refine ⟨c, e, l, by rw [hd]; exact e', ?_⟩
  rw [mapEqual_eq]
  congr 3
  have he : ∀ x y : κ × μ, decide (x = y) = true ↔ elementCompare ck cm x y = .equal := by
    rintro ⟨a, b⟩ ⟨a', b'⟩
    simp only [elementCompare, decide_eq_true_iff, Prod.mk.injEq, ← hk, ← hm]
    by_cases hq : ck a a' = .equal <;> simp [hq]
  rw [C47_equal_consistent he l, eq_iff_iff]
  constructor
  · rintro rfl
    exact ⟨rfl, fun k hk hk' => by simp⟩
  · rintro ⟨h1, h2⟩
    exact List.ext_getElem h1 fun i h3 h4 => by simpa using h2 i h3 h4

/-- What decides the order of two maps: the first keys that differ, or the first mapped values of equal keys, or the number of elements. -/
theorem C97_decides {ck : κ → κ → POrd} {cm : μ → μ → POrd} (hk : ∀ a, ck a a = .equal) (hm : ∀ a, cm a a = .equal) (p s t : List (κ × μ)) (k k' : κ) (v v' : μ) :
    (ck k k' ≠ .equal → mapCompare ck cm (p ++ (k, v) :: s) (p ++ (k', v') :: t) = some (.ok (ck k k'))) ∧
    (cm v v' ≠ .equal → mapCompare ck cm (p ++ (k, v) :: s) (p ++ (k, v') :: t) = some (.ok (cm v v'))) ∧
    mapCompare ck cm p (p ++ (k, v) :: s) = some (.ok .less) ∧ mapCompare ck cm (p ++ (k, v) :: s) p = some (.ok .greater) := by
  have he : ∀ x : κ × μ, elementCompare ck cm x x = .equal := fun x => by simp [elementCompare, hk, hm]
  have hl : ∀ {xs ys : List (κ × μ)} {c : POrd}, LexIs (elementCompare ck cm) xs ys c → LexIs (elementCompare ck cm) (p ++ xs) (p ++ ys) c := by
    intro xs ys c l
    induction p with
    | nil => exact l
    | cons x p ih => exact LexIs.cons_eq (he x) ih
  have hd : ∀ {xs ys : List (κ × μ)} {c : POrd}, LexIs (elementCompare ck cm) xs ys c → mapCompare ck cm (p ++ xs) (p ++ ys) = some (.ok c) := by
    intro xs ys c l
    obtain ⟨d, e, l'⟩ := C47_lexicographical_compare (mapRange_is (p ++ xs)) (mapRange_is (p ++ ys)) (elementCompare ck cm) (Nat.lt_succ_self (p ++ xs).length)
    rw [mapCompare, e, l'.unique (hl l)]
  refine ⟨fun h => ?_, fun h => ?_, ?_, ?_⟩
  · have : elementCompare ck cm (k, v) (k', v') = ck k k' := if_pos h
    rw [← this] at h ⊢
    exact hd (LexIs.cons_ne s t h)
  · have : elementCompare ck cm (k, v) (k, v') = cm v v' := if_neg (by simpa using hk k)
    rw [← this] at h ⊢
    exact hd (LexIs.cons_ne s t h)
  · have := hd (LexIs.shorter (cmp := elementCompare ck cm) (xs := []) (ys := (k, v) :: s) (by simp))
    simpa [Nat.compare_eq_lt.2, POrd.ofOrdering] using this
  · have := hd (LexIs.shorter (cmp := elementCompare ck cm) (xs := (k, v) :: s) (ys := []) (by simp))
    simpa [Nat.compare_eq_gt.2, POrd.ofOrdering] using this

/-- C97 fails for linear maps: the same keys with the same values, inserted in a different order, do not compare equal, and one of the maps is less
than the other one. -/
theorem C97_insertion_order_violated :
    krun exLin.kstep [] [.insert 1 10, .insert 2 20] = some ([(1, 10), (2, 20)], [.inserted true, .inserted true]) ∧
    krun exLin.kstep [] [.insert 2 20, .insert 1 10] = some ([(2, 20), (1, 10)], [.inserted true, .inserted true]) ∧
    (∀ k, exLin.lookup [(1, 10), (2, 20)] k = exLin.lookup [(2, 20), (1, 10)] k) ∧
    mapEqual [((1 : Nat), (10 : Nat)), (2, 20)] [(2, 20), (1, 10)] = some (.ok false) ∧
    mapCompare (fun a b => .ofOrdering (compare a b)) (fun a b => .ofOrdering (compare a b)) [((1 : Nat), (10 : Nat)), (2, 20)] [(2, 20), (1, 10)] = some (.ok .less) := by
  refine ⟨by decide +kernel, by decide +kernel, fun k => ?_, by decide +kernel, by decide +kernel⟩
  obtain ⟨h1, h2⟩ := C35_lookup exLin_eq (L := exLin) (xs := [(1, 10), (2, 20)]) (by simp [Lin.Unique, exLin]) k
  obtain ⟨h3, h4⟩ := C35_lookup exLin_eq (L := exLin) (xs := [(2, 20), (1, 10)]) (by simp [Lin.Unique, exLin]) k
  by_cases k1 : k = 1
  · rw [h1 (1, 10) (by simp) (by simp [exLin, k1]), h3 (1, 10) (by simp) (by simp [exLin, k1])]
  · by_cases k2 : k = 2
    · rw [h1 (2, 20) (by simp) (by simp [exLin, k2]), h3 (2, 20) (by simp) (by simp [exLin, k2])]
    · rw [h2 fun e he => by simp at he; rcases he with rfl | rfl <;> simp [exLin] <;> omega,
        h4 fun e he => by simp at he; rcases he with rfl | rfl <;> simp [exLin] <;> omega]

/-- A linear map also remembers that a key was erased and inserted again. -/
theorem C97_reinsertion_violated :
    krun exLin.kstep [] [.insert 1 10, .insert 2 20] = some ([(1, 10), (2, 20)], [.inserted true, .inserted true]) ∧
    krun exLin.kstep [] [.insert 1 10, .insert 2 20, .erase 1, .insert 1 10] =
      some ([(2, 20), (1, 10)], [.inserted true, .inserted true, .erased 1, .inserted true]) := ⟨by decide +kernel, by decide +kernel⟩

/-- Keys are the same to this map if they have the same half. -/
def halves : Cfg Nat Nat := { exMulti 100 with lt := fun a b => decide (a / 2 < b / 2) }

theorem halves_order : StrictWeak halves.lt := ⟨fun {a b} h => by simp only [halves, decide_eq_true_eq, decide_eq_false_iff_not] at *; omega,
  fun {a b c} h h' => by simp only [halves, decide_eq_false_iff_not] at *; omega⟩

/-- C97 fails for sorted maps whose order does not tell some keys apart: the two maps give the same answer to every lookup, but `operator==` looks at the
keys themselves, not at what the order says about them. -/
theorem C97_equivalent_keys_violated :
    krun halves.kstep [] [.insert 2 10] = some ([(2, 10)], [.inserted true]) ∧ krun halves.kstep [] [.insert 3 10] = some ([(3, 10)], [.inserted true]) ∧
    (∀ k, halves.lookup [(2, 10)] k = halves.lookup [(3, 10)] k) ∧ mapEqual [((2 : Nat), (10 : Nat))] [(3, 10)] = some (.ok false) := by
  refine ⟨by decide +kernel, by decide +kernel, fun k => ?_, by decide +kernel⟩
  obtain ⟨r, e, h⟩ := C33_lookup halves_order (S := fun e => e = (2, 10)) (xs := [(2, 10)]) ⟨by simp, by simp⟩ k
  obtain ⟨r', e', h'⟩ := C33_lookup halves_order (S := fun e => e = (3, 10)) (xs := [(3, 10)]) ⟨by simp, by simp⟩ k
  rw [e, e']
  congr 1
  refine Option.ext fun v => ?_
  rw [h, h']
  simp only [Prod.mk.injEq, Cfg.Same, halves, decide_eq_false_iff_not]
  constructor
  · rintro ⟨k', ⟨rfl, rfl⟩, h1, h2⟩
    exact ⟨3, ⟨rfl, rfl⟩, by omega, by omega⟩
  · rintro ⟨k', ⟨rfl, rfl⟩, h1, h2⟩
    exact ⟨2, ⟨rfl, rfl⟩, by omega, by omega⟩

/-- A map whose order tells all keys apart. -/
def plain : Cfg Nat Nat := { exMulti 100 with lt := fun a b => decide (a < b) }

/-- The hypotheses of `C97_flat_map_history` can be met. -/
example : StrictWeak plain.lt ∧ (∀ k k', plain.Same k k' → k = k') ∧
    (AMap.empty : AMap Nat Nat).Room plain.same plain.mx [.insert 3 1, .insert 2 5, .erase 3] :=
  ⟨⟨fun {a b} h => by simp only [plain, decide_eq_true_eq, decide_eq_false_iff_not] at *; omega,
    fun {a b c} h h' => by simp only [plain, decide_eq_false_iff_not] at *; omega⟩,
    fun k k' h => by simp only [Cfg.Same, plain, decide_eq_false_iff_not] at h; omega,
    fun _ _ _ => show 0 < 100 by decide, fun _ _ _ => show 1 < 100 by decide, (fun _ _ h => by cases h), trivial⟩

/-- Two histories that lead to equal maps. -/
example : krun plain.kstep [] [.insert 3 1, .insert 2 5] = some ([(2, 5), (3, 1)], [.inserted true, .inserted true]) ∧
    krun plain.kstep [] [.insert 2 5, .insert 7 7, .insert 3 1, .erase 7] =
      some ([(2, 5), (3, 1)], [.inserted true, .inserted true, .inserted true, .erased 1]) ∧
    mapEqual [((2 : Nat), (5 : Nat)), (3, 1)] [(2, 5), (3, 1)] = some (.ok true) := by decide +kernel

/-- The hypotheses of `C97_linear_map_partial` can be met. -/
example : (∀ k k', exLin.eq k k' = true ↔ k = k') ∧ (AMap.empty : AMap Nat Nat).Room exLin.eq exLin.mx [.insert 3 1, .insert 2 5, .erase 3] :=
  ⟨fun k k' => by simp [exLin], fun _ _ _ => show 0 < 100 by decide, fun _ _ _ => show 1 < 100 by decide, (fun _ _ h => by cases h), trivial⟩

/-- The hypotheses of `C97_order` and `C97_decides` can be met. -/
example : (∀ a b : Nat, POrd.ofOrdering (compare a b) = .equal ↔ a = b) ∧ (∀ a b : Nat, POrd.ofOrdering (compare b a) = (POrd.ofOrdering (compare a b)).swap) := by
  refine ⟨fun a b => ?_, fun a b => ?_⟩ <;> rcases Nat.lt_trichotomy a b with h | h | h
  · rw [Nat.compare_eq_lt.2 h]; simp [POrd.ofOrdering]; omega
  · subst h; rw [Nat.compare_eq_eq.2 rfl]; simp [POrd.ofOrdering]
  · rw [Nat.compare_eq_gt.2 h]; simp [POrd.ofOrdering]; omega
  · rw [Nat.compare_eq_lt.2 h, Nat.compare_eq_gt.2 h]; rfl
  · subst h; rw [Nat.compare_eq_eq.2 rfl]; rfl
  · rw [Nat.compare_eq_lt.2 h, Nat.compare_eq_gt.2 h]; rfl

end Verif.Maps
