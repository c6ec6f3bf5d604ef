import Verif.Containers.Alias

/-!
# Erasing the elements that are equal to an element of the container itself (C86)

`erase(v, value)` keeps a reference to `value`, and each comparison reads it. In `Generic.lean` the predicate of `erase_if` is a function of the element; here it reads the container, in
which `erase_if` moves elements.
-/

namespace Verif.Containers

open Verif Impl Lawful

variable {V O : Type}

/-! ## Model -/

/-- The loop of `erase_if` (`algorithms/erase.cpp` 109-116), as `eraseIfLoop`, with the predicate `equal_to(value)` (`bounded/comparison_function_object.cpp` 19-48), where `value` is the
element at `ref`. Gives the slots and `new_last`. -/
def eraseRefLoop (eq : V → V → Bool) (mv : V → V) (cap ref : Nat) : Nat → Cells V → Nat → Nat → Option (Cells V × Nat)
  | 0, m, newLast, _ => some (m, newLast)
  | rest + 1, m, newLast, it =>
    match readCell cap m it, readCell cap m newLast, readCell cap m ref with
    | some v, some _, some value =>
      if eq value v then eraseRefLoop eq mv cap ref rest m newLast (it + 1)
      else eraseRefLoop eq mv cap ref rest (upd (upd m newLast (some v)) it (some (mv v))) (newLast + 1) (it + 1)
    | _, _, _ => none

/-- `erase(c, c[ref])` (`std/inplace_vector.cpp` 378-381, `algorithms/erase.cpp` 91-120). The search for the first element does not change anything, so that `value` is read once for it. The
returned count is left out (`C46_erase_if_count_violated`). -/
def Impl.eraseRef (I : Impl V O) (h : Heap V) (o : O) (eq : V → V → Bool) (mv : V → V) (ref : Nat) : Out (Heap V × O) :=
  match readCell (I.mem h o).1 (I.mem h o).2 ref with
  | none => .ub
  | some value =>
    match findIfCells (eq value) (I.mem h o).1 (I.mem h o).2 0 (I.size o) with
    | none => .ub
    | some k =>
      if k = I.size o then .ok (h, o)
      else
        match eraseRefLoop eq mv (I.mem h o).1 ref (I.size o - (k + 1)) (I.mem h o).2 k (k + 1) with
        | none => .ub
        | some (m, newLast) => I.eraseToEnd (I.put h o m).1 (I.put h o m).2 newLast

/-! ## Proofs -/

theorem readCell_cells {cap : Nat} {xs : List V} {k : Nat} (hc : xs.length ≤ cap) (hk : k < xs.length) : readCell cap (cells xs) k = some xs[k] := by
  simp only [readCell, cells]; rw [if_pos (by omega)]; exact List.getElem?_eq_getElem hk

/-- One round. -/
theorem eraseRef_keep {eq : V → V → Bool} {mv : V → V} {cap ref : Nat} {R K J : List V} {j v w : V} (hc : (K ++ j :: J ++ v :: R).length ≤ cap)
    (hw : (K ++ j :: J ++ v :: R)[ref]? = some w) (hp : eq w v = false) :
    eraseRefLoop eq mv cap ref (v :: R).length (cells (K ++ j :: J ++ v :: R)) K.length (K.length + (j :: J).length) =
      eraseRefLoop eq mv cap ref R.length (cells (K ++ [v] ++ (J ++ [mv v]) ++ R)) (K ++ [v]).length ((K ++ [v]).length + (J ++ [mv v]).length) := by
  obtain ⟨hr, hw⟩ := List.getElem?_eq_some_iff.1 hw
  have r1 : readCell cap (cells (K ++ j :: J ++ v :: R)) (K.length + (j :: J).length) = some v := by
    rw [readCell_cells hc (by simp)]; simp
  have r2 : readCell cap (cells (K ++ j :: J ++ v :: R)) K.length = some j := by
    rw [readCell_cells hc (by simp)]; simp
  have r3 : readCell cap (cells (K ++ j :: J ++ v :: R)) ref = some w := by
    rw [readCell_cells hc hr, hw]
  have hset : upd (upd (cells (K ++ j :: J ++ v :: R)) K.length (some v)) (K.length + (j :: J).length) (some (mv v)) =
      cells (K ++ [v] ++ (J ++ [mv v]) ++ R) := by
    rw [upd_cells (by simp), upd_cells (by simp)]
    congr 1
    simp [List.set_append]
  rw [List.length_cons, eraseRefLoop, r1, r2, r3]
  simp only [hp, Bool.false_eq_true, if_false, hset]
  congr 1
  · simp
  · simp; omega

theorem eraseRef_drop {eq : V → V → Bool} {mv : V → V} {cap ref : Nat} {R K J : List V} {v w : V} (hc : (K ++ J ++ v :: R).length ≤ cap) (hJ : J ≠ [])
    (hw : (K ++ J ++ v :: R)[ref]? = some w) (hp : eq w v = true) :
    eraseRefLoop eq mv cap ref (v :: R).length (cells (K ++ J ++ v :: R)) K.length (K.length + J.length) =
      eraseRefLoop eq mv cap ref R.length (cells (K ++ (J ++ [v]) ++ R)) K.length (K.length + (J ++ [v]).length) := by
  obtain ⟨hr, hw⟩ := List.getElem?_eq_some_iff.1 hw
  obtain ⟨j, J, rfl⟩ := List.exists_cons_of_ne_nil hJ
  have r1 : readCell cap (cells (K ++ j :: J ++ v :: R)) (K.length + (j :: J).length) = some v := by
    rw [readCell_cells hc (by simp)]; simp
  have r2 : readCell cap (cells (K ++ j :: J ++ v :: R)) K.length = some j := by
    rw [readCell_cells hc (by simp)]; simp
  have r3 : readCell cap (cells (K ++ j :: J ++ v :: R)) ref = some w := by
    rw [readCell_cells hc hr, hw]
  rw [List.length_cons, eraseRefLoop, r1, r2, r3]
  simp only [hp, if_true]
  have e : K ++ (j :: J ++ [v]) ++ R = K ++ j :: J ++ v :: R := by simp
  rw [e]
  congr 1
  simp; omega

/-- Once the element has its final place among the elements `K`, the loop compares with that. -/
theorem eraseRef_fixed {eq : V → V → Bool} {mv : V → V} {cap ref : Nat} {w : V} : ∀ (R K J : List V), J ≠ [] → (K ++ J ++ R).length ≤ cap → K[ref]? = some w →
    ∃ J', eraseRefLoop eq mv cap ref R.length (cells (K ++ J ++ R)) K.length (K.length + J.length) =
        some (cells (K ++ R.filter (fun v => !eq w v) ++ J'), (K ++ R.filter (fun v => !eq w v)).length) ∧
      (K ++ R.filter (fun v => !eq w v) ++ J').length = (K ++ J ++ R).length := by
  intro R
  induction R with
  | nil => intro K J _ _ _; exact ⟨J, by simp [eraseRefLoop], by simp⟩
  | cons v R ih =>
    intro K J hJ hc hw
    obtain ⟨hr, _⟩ := List.getElem?_eq_some_iff.1 hw
    have hw' : (K ++ J ++ v :: R)[ref]? = some w := by
      rw [List.append_assoc, List.getElem?_append_left hr]; exact hw
    cases hp : eq w v with
    | true =>
      obtain ⟨J', e1, e2⟩ := ih K (J ++ [v]) (by simp) (by simp at hc ⊢; omega) hw
      rw [List.filter_cons_of_neg (by simp [hp])]
      refine ⟨J', ?_, by rw [e2]; simp⟩
      rw [eraseRef_drop hc hJ hw' hp]; exact e1
    | false =>
      obtain ⟨j, J, rfl⟩ := List.exists_cons_of_ne_nil hJ
      obtain ⟨J', e1, e2⟩ := ih (K ++ [v]) (J ++ [mv v]) (by simp) (by simp at hc ⊢; omega) (by rw [List.getElem?_append_left hr]; exact hw)
      rw [List.filter_cons_of_pos (by simp [hp])]
      refine ⟨J', ?_, by simp at e2 ⊢; omega⟩
      rw [eraseRef_keep hc hw' hp, e1]
      simp

/-- While the element is not overwritten. -/
theorem eraseRef_moving {eq : V → V → Bool} {mv : V → V} {cap ref : Nat} {x : V} (hxx : eq x x = true) : ∀ (A R K J : List V), J ≠ [] → (K ++ J ++ (A ++ R)).length ≤ cap →
    (K ++ J ++ (A ++ R))[ref]? = some x → K.length + (A.filter fun v => !eq x v).length ≤ ref →
    ∃ J', J' ≠ [] ∧ eraseRefLoop eq mv cap ref (A ++ R).length (cells (K ++ J ++ (A ++ R))) K.length (K.length + J.length) =
        eraseRefLoop eq mv cap ref R.length (cells (K ++ A.filter (fun v => !eq x v) ++ J' ++ R)) (K ++ A.filter fun v => !eq x v).length
          ((K ++ A.filter fun v => !eq x v).length + J'.length) ∧
      (K ++ A.filter (fun v => !eq x v) ++ J').length = (K ++ J ++ A).length ∧
      (K ++ A.filter (fun v => !eq x v) ++ J' ++ R)[ref]? = some x := by
  intro A
  induction A with
  | nil => intro R K J hJ _ hw _; exact ⟨J, hJ, by simp, by simp, by simpa using hw⟩
  | cons v A ih =>
    intro R K J hJ hc hw hlen
    cases hp : eq x v with
    | true =>
      rw [List.filter_cons_of_neg (by simp [hp])] at hlen ⊢
      obtain ⟨J', hJ', e1, e2, e3⟩ := ih R K (J ++ [v]) (by simp) (by simp at hc ⊢; omega) (by simpa using hw) hlen
      refine ⟨J', hJ', ?_, by rw [e2]; simp, e3⟩
      rw [List.cons_append, eraseRef_drop (by simpa using hc) hJ (by simpa using hw) hp]; exact e1
    | false =>
      rw [List.filter_cons_of_pos (by simp [hp])] at hlen ⊢
      simp only [List.length_cons] at hlen
      obtain ⟨j, J, rfl⟩ := List.exists_cons_of_ne_nil hJ
      have hne : ref ≠ K.length + (j :: J).length := by
        rintro rfl
        rw [List.cons_append, List.getElem?_append_right (by simp)] at hw
        simp at hw
        subst hw
        rw [hxx] at hp; cases hp
      have hw' : (K ++ [v] ++ (J ++ [mv v]) ++ (A ++ R))[ref]? = some x := by
        have hset : ((K ++ j :: J ++ (v :: A ++ R)).set K.length v).set (K.length + (j :: J).length) (mv v) = K ++ [v] ++ (J ++ [mv v]) ++ (A ++ R) := by
          simp [List.set_append]
        rw [← hset, List.getElem?_set_ne (by omega), List.getElem?_set_ne (by omega)]
        exact hw
      obtain ⟨J', hJ', e1, e2, e3⟩ := ih R (K ++ [v]) (J ++ [mv v]) (by simp) (by simp at hc ⊢; omega) hw' (by simp; omega)
      refine ⟨J', hJ', ?_, by simp at e2 ⊢; omega, by simpa using e3⟩
      rw [List.cons_append, eraseRef_keep (by simpa using hc) (by simpa using hw) hp, e1]
      simp

variable {I : Impl V O} {mn : Nat} {mkA : Bool} {L : Lawful I mn mkA}

/-- From the loop to the function. -/
theorem eraseRef_of {h : Heap V} {o : O} {xs ys J' : List V} {cap ref k : Nat} {x : V} {eq : V → V → Bool} {mv : V → V} (r : L.Rep h o xs cap)
    (hx : xs[ref]? = some x) (hxx : eq x x = true) (hk : xs.findIdx (eq x) = k)
    (hlt : k < xs.length)
    (e1 : eraseRefLoop eq mv cap ref (xs.length - (k + 1)) (cells xs) k (k + 1) = some (cells (ys ++ J'), ys.length)) (e2 : (ys ++ J').length = xs.length) :
    ∃ h' o', I.eraseRef h o eq mv ref = .ok (h', o') ∧ L.Rep h' o' ys cap ∧ Frame (I.own o) h (I.own o') h' := by
  have hs := r.1.2.2
  have hc := r.2
  obtain ⟨hr, hxr⟩ := List.getElem?_eq_some_iff.1 hx
  simp only [Impl.eraseRef, r.mem, hs]
  rw [readCell_cells hc hr, hxr]
  simp only
  rw [findIfCells_eq (eq x) cap xs hc xs.length 0 (by omega)]
  simp only [Nat.zero_add, List.drop_zero, hk, if_neg (show ¬ k = xs.length by omega), e1]
  have v := r.view.put (cells (ys ++ J'))
  have r2 : L.Rep _ _ (ys ++ J') cap := rep_of v.1 rfl e2.symm (by omega)
  obtain ⟨h', o', e3, r3, f3, _⟩ := good_eraseToEnd (k := ys.length) r2 (by simp)
  exact ⟨h', o', by rw [e3]; rfl, by simpa using r3, v.2.2.trans f3⟩

/-- The elements up to the first one that is equal to `x`. -/
theorem first_equal {xs : List V} {ref : Nat} {x : V} {eq : V → V → Bool} (hx : xs[ref]? = some x) (hxx : eq x x = true) :
    ∃ K a R, xs = K ++ a :: R ∧ xs.findIdx (eq x) = K.length ∧ K.length ≤ ref ∧ eq x a = true ∧ ∀ v ∈ K, eq x v = false := by
  obtain ⟨hr, hxr⟩ := List.getElem?_eq_some_iff.1 hx
  have hle : xs.findIdx (eq x) ≤ ref := by
    apply Nat.le_of_not_lt
    intro hlt
    have := List.not_of_lt_findIdx hlt
    simp [hxr, hxx] at this
  have hlt : xs.findIdx (eq x) < xs.length := by omega
  refine ⟨xs.take (xs.findIdx (eq x)), xs[xs.findIdx (eq x)], xs.drop (xs.findIdx (eq x) + 1), ?_, by simp; omega, by simp; omega, List.findIdx_getElem, ?_⟩
  · rw [← List.drop_eq_getElem_cons hlt, List.take_append_drop]
  · intro v hv
    obtain ⟨i, hi, rfl⟩ := List.mem_iff_getElem.1 hv
    simp only [List.length_take] at hi
    have := List.not_of_lt_findIdx (p := eq x) (xs := xs) (i := i) (by omega)
    simpa using this

theorem filter_all {K : List V} {p : V → Bool} (h : ∀ v ∈ K, p v = false) : K.filter (fun v => !p v) = K :=
  List.filter_eq_self.2 fun v hv => by simp [h v hv]

/-- `erase(c, c[ref])` removes exactly the elements that are equal to `c[ref]` if at most `ref` elements are left, in other words if the place of `c[ref]` is not used by one of them. -/
theorem C86_erase_partial {h : Heap V} {o : O} {xs : List V} {cap ref : Nat} {x : V} (eq : V → V → Bool) (mv : V → V) (r : L.Rep h o xs cap) (hx : xs[ref]? = some x)
    (hxx : eq x x = true) (hlen : (xs.filter fun v => !eq x v).length ≤ ref) :
    ∃ h' o', I.eraseRef h o eq mv ref = .ok (h', o') ∧ L.Rep h' o' (xs.filter fun v => !eq x v) cap ∧ Frame (I.own o) h (I.own o') h' := by
  obtain ⟨K, a, R, rfl, hk, hle, ha, hK⟩ := first_equal hx hxx
  have hf : (K ++ a :: R).filter (fun v => !eq x v) = K ++ R.filter fun v => !eq x v := by
    rw [List.filter_append, filter_all hK, List.filter_cons_of_neg (by simp [ha])]
  have hc := r.2
  rw [hf] at hlen ⊢
  obtain ⟨J', _, e1, e2, _⟩ := eraseRef_moving (mv := mv) (cap := cap) (ref := ref) hxx R [] K [a] (by simp) (by simpa using hc) (by simpa using hx) (by simpa using hlen)
  refine eraseRef_of (J' := J') r hx hxx hk (by simp) ?_ (by simpa using e2)
  simp only [List.append_nil, List.length_nil, eraseRefLoop, List.append_assoc, List.singleton_append] at e1
  rw [show (K ++ a :: R).length - (K.length + 1) = R.length by simp; omega, List.append_assoc]
  exact e1

/-- In the other case some element `y` is written to the place of `c[ref]`, and from then on `erase` compares with `y`. -/
theorem C86_erase_overwritten {h : Heap V} {o : O} {A B : List V} {cap ref : Nat} {x y : V} (eq : V → V → Bool) (mv : V → V) (r : L.Rep h o (A ++ y :: B) cap)
    (hx : (A ++ y :: B)[ref]? = some x) (hxx : eq x x = true) (hlen : (A.filter fun v => !eq x v).length = ref) (hy : eq x y = false) :
    ∃ h' o', I.eraseRef h o eq mv ref = .ok (h', o') ∧ L.Rep h' o' ((A.filter fun v => !eq x v) ++ y :: B.filter fun v => !eq y v) cap ∧ Frame (I.own o) h (I.own o') h' := by
  obtain ⟨K, a, R, hxs, hk, hle, ha, hK⟩ := first_equal hx hxx
  have hA : ∃ A', A = K ++ a :: A' ∧ R = A' ++ y :: B := by
    rcases List.append_eq_append_iff.1 hxs with ⟨C, rfl, h2⟩ | ⟨C, rfl, h2⟩
    · cases C with
      | nil =>
        simp only [List.nil_append, List.cons.injEq] at h2
        rw [h2.1, ha] at hy; cases hy
      | cons b C =>
        exfalso
        have := List.length_filter_le (fun v => !eq x v) A
        simp at hle
        omega
    · cases C with
      | nil =>
        simp only [List.nil_append, List.cons.injEq] at h2
        rw [← h2.1, ha] at hy; cases hy
      | cons b C =>
        simp only [List.cons_append, List.cons.injEq] at h2
        exact ⟨C, by rw [h2.1], h2.2⟩
  obtain ⟨A', rfl, rfl⟩ := hA
  have hf : (K ++ a :: A').filter (fun v => !eq x v) = K ++ A'.filter fun v => !eq x v := by
    rw [List.filter_append, filter_all hK, List.filter_cons_of_neg (by simp [ha])]
  have hc := r.2
  rw [hf] at hlen ⊢
  simp only [List.length_append] at hlen
  obtain ⟨J1, hJ1, e1, e2, e3⟩ := eraseRef_moving (mv := mv) (cap := cap) (ref := ref) hxx A' (y :: B) K [a] (by simp) (by simpa using hc) (by simpa using hx) (by omega)
  obtain ⟨j, J1, rfl⟩ := List.exists_cons_of_ne_nil hJ1
  have hc2 : (K ++ A'.filter (fun v => !eq x v) ++ j :: J1 ++ y :: B).length ≤ cap := by
    simp at e2 hc ⊢; omega
  obtain ⟨J', e4, e5⟩ := eraseRef_fixed (eq := eq) (mv := mv) (cap := cap) (ref := ref) (w := y) B (K ++ A'.filter (fun v => !eq x v) ++ [y]) (J1 ++ [mv y]) (by simp)
    (by simp at hc2 ⊢; omega) (by rw [List.getElem?_append_right (by simp; omega)]; simp [hlen])
  refine eraseRef_of (J' := J') r hx hxx (by simpa using hk) (by simp) ?_ ?_
  · rw [eraseRef_keep hc2 e3 hy, e4] at e1
    rw [show ((K ++ a :: A') ++ y :: B).length - (K.length + 1) = (A' ++ y :: B).length by simp; omega]
    simp only [List.append_assoc, List.singleton_append, List.length_singleton, List.cons_append, List.nil_append] at e1 ⊢
    exact e1
  · simp at e2 e5 ⊢; omega

/-- One of the two theorems applies. -/
theorem C86_erase_cases {xs : List V} {ref : Nat} {x : V} (eq : V → V → Bool) :
    (xs.filter fun v => !eq x v).length ≤ ref ∨ ∃ A y B, xs = A ++ y :: B ∧ (A.filter fun v => !eq x v).length = ref ∧ eq x y = false := by
  induction xs generalizing ref with
  | nil => exact Or.inl (by simp)
  | cons v xs ih =>
    cases hp : eq x v with
    | true =>
      rw [List.filter_cons_of_neg (by simp [hp])]
      rcases ih (ref := ref) with h | ⟨A, y, B, rfl, h2, h3⟩
      · exact Or.inl h
      · exact Or.inr ⟨v :: A, y, B, rfl, by rw [List.filter_cons_of_neg (by simp [hp])]; exact h2, h3⟩
    | false =>
      rw [List.filter_cons_of_pos (by simp [hp])]
      cases ref with
      | zero => exact Or.inr ⟨[], v, xs, rfl, rfl, hp⟩
      | succ ref =>
        rcases ih (ref := ref) with h | ⟨A, y, B, rfl, h2, h3⟩
        · exact Or.inl (by simpa using h)
        · exact Or.inr ⟨v :: A, y, B, rfl, by rw [List.filter_cons_of_pos (by simp [hp])]; simpa using h2, h3⟩

/-- In that case the result is right only if neither `c[ref]` nor `y` is equal to one of the elements after `y`. Otherwise `erase` keeps elements that are equal to `c[ref]`, or removes
elements that are not. -/
theorem C86_erase_violated [DecidableEq V] {h : Heap V} {o : O} {A B : List V} {cap ref : Nat} {x y : V} (mv : V → V) (r : L.Rep h o (A ++ y :: B) cap)
    (hx : (A ++ y :: B)[ref]? = some x) (hlen : (A.filter fun v => !decide (x = v)).length = ref) (hy : x ≠ y) (hB : x ∈ B ∨ y ∈ B) :
    ∃ h' o' ys, I.eraseRef h o (fun a b => decide (a = b)) mv ref = .ok (h', o') ∧ L.Rep h' o' ys cap ∧ ys ≠ (A ++ y :: B).filter fun v => !decide (x = v) := by
  obtain ⟨h', o', e, r', _⟩ := C86_erase_overwritten (fun a b => decide (a = b)) mv r hx (by simp) hlen (by simpa using hy)
  refine ⟨h', o', _, e, r', ?_⟩
  rw [List.filter_append, List.filter_cons_of_pos (by simpa using hy)]
  intro he
  have he := List.cons.inj (List.append_cancel_left he)
  rcases hB with hB | hB
  · have : x ∈ B.filter fun v => !decide (y = v) := List.mem_filter.2 ⟨hB, by simpa using Ne.symm hy⟩
    rw [he.2] at this
    simp at this
  · have : y ∈ B.filter fun v => !decide (x = v) := List.mem_filter.2 ⟨hB, by simpa using hy⟩
    rw [← he.2] at this
    simp at this

/-! ## Concrete cases -/

/-- The `static_vector<Nat, 6>` with the elements 1, 2, 1, 3, 1, 2. -/
def ones : Stat Nat := ⟨cells [1, 2, 1, 3, 1, 2], 6⟩

theorem ones_rep : (Stat.lawful 6 : Lawful (stat Nat 6) 6 false).Rep ⟨fun _ => none, 0⟩ ones [1, 2, 1, 3, 1, 2] 6 :=
  ⟨⟨trivial, rfl, rfl⟩, by decide⟩

/-- The hypotheses of the theorems: `c[4]` is far enough back, `c[2]` and `c[0]` are not. -/
example : [1, 2, 1, 3, 1, 2][4]? = some 1 ∧ ([1, 2, 1, 3, 1, 2].filter fun v => !decide (1 = v)).length ≤ 4 ∧
    ([1, 2, 1, 3, 1] ++ 2 :: [])[2]? = some 1 ∧ ([1, 2, 1, 3, 1].filter fun v => !decide (1 = v)).length = 2 ∧
    ([1] ++ 2 :: [1, 3, 1, 2])[0]? = some 1 ∧ ([1].filter fun v => !decide (1 = v)).length = 0 ∧ 1 ∈ [1, 3, 1, 2] := by decide

/-- `erase(c, c[4])` and `erase(c, c[2])` are right; `erase(c, c[0])` keeps all of the ones but the first, and removes the last two. -/
example : shown (stat Nat 6) ((stat Nat 6).eraseRef ⟨fun _ => none, 0⟩ ones (fun a b => decide (a = b)) id 4) = some [some 2, some 3, some 2] ∧
    shown (stat Nat 6) ((stat Nat 6).eraseRef ⟨fun _ => none, 0⟩ ones (fun a b => decide (a = b)) id 2) = some [some 2, some 3, some 2] ∧
    shown (stat Nat 6) ((stat Nat 6).eraseRef ⟨fun _ => none, 0⟩ ones (fun a b => decide (a = b)) id 0) = some [some 2, some 1, some 3, some 1] := by
  decide +kernel

end Verif.Containers
