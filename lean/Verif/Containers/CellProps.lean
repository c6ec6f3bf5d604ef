import Verif.Containers.Spec

/-!
# The slot loops, on sequences

The state of a block that holds the elements `xs` in its first slots is `fun k => xs[k]?`.
-/

namespace Verif.Containers

open Verif

variable {V : Type}

/-- The slots of a block holding `xs` in front. -/
def cells (xs : List V) : Cells V := fun k => xs[k]?

theorem cells_live {xs : List V} {k : Nat} (h : k < xs.length) : (cells xs k).isSome := by
  simp [cells, h]

theorem cells_raw {xs : List V} {k : Nat} (h : xs.length ≤ k) : cells xs k = none := by
  simp [cells, h]

theorem cells_nil : cells ([] : List V) = fun _ => none := by funext k; simp [cells]

theorem upd_cells {xs : List V} {i : Nat} (h : i < xs.length) (v : V) :
    upd (cells xs) i (some v) = cells (xs.set i v) := by
  funext k
  simp only [upd, cells, List.getElem?_set]
  by_cases hk : k = i
  · subst hk; simp [h]
  · simp [hk, Ne.symm hk]

theorem upd_cells_end (xs : List V) (v : V) : upd (cells xs) xs.length (some v) = cells (xs ++ [v]) := by
  funext k
  simp only [upd, cells]
  by_cases hk : k = xs.length
  · subst hk; simp
  · rw [if_neg hk, List.getElem?_append]
    split
    · rfl
    · rw [List.getElem?_eq_none (by omega), List.getElem?_eq_none (by simp; omega)]

theorem cleared_cells (xs : List V) (k : Nat) (h : k ≤ xs.length) :
    cleared (cells xs) k (xs.length - k) = cells (xs.take k) := by
  funext j
  simp only [cleared, cells, List.getElem?_take]
  by_cases h1 : j < k
  · rw [if_neg (by omega), if_pos h1]
  · rw [if_neg h1]
    by_cases h2 : j < xs.length
    · rw [if_pos (by omega)]
    · rw [if_neg (by omega), List.getElem?_eq_none (by omega)]

theorem written_cells (xs ys : List V) : written (cells xs) xs.length ys = cells (xs ++ ys) := by
  funext j
  simp only [written, cells, List.getElem?_append]
  by_cases h1 : j < xs.length
  · rw [if_neg (by omega), if_pos h1]
  · rw [if_neg h1]
    split
    · rfl
    · rw [List.getElem?_eq_none (by omega), List.getElem?_eq_none (by omega)]

theorem written_none (ys : List V) : written (fun _ => none) 0 ys = cells ys := by
  have := written_cells [] ys
  rwa [cells_nil] at this

/-- Old elements written in front of the ones constructed behind them. -/
theorem written_front (xs ys : List V) :
    written (written (fun _ => none) xs.length ys) 0 xs = cells (xs ++ ys) := by
  funext j
  simp only [written, cells, List.getElem?_append]
  by_cases h1 : j < xs.length
  · rw [if_pos (by omega), if_pos h1]; rfl
  · rw [if_neg (by omega), if_neg h1]
    split
    · rfl
    · rw [List.getElem?_eq_none (by omega)]

/-- Both halves of the old elements written around the new ones. -/
theorem written_around (xs ys : List V) (k : Nat) (h : k ≤ xs.length) :
    written (written (written (fun _ => none) k ys) 0 (xs.take k)) (k + ys.length) (xs.drop k) =
      cells (xs.take k ++ ys ++ xs.drop k) := by
  have e : (xs.take k).length = k := by simp [h]
  funext j
  simp only [written, cells, List.getElem?_append, List.length_append, e, List.length_drop]
  by_cases h1 : j < k
  · rw [if_neg (by omega), if_pos (by omega), if_pos (by omega), if_pos h1]; rfl
  · by_cases h2 : j < k + ys.length
    · rw [if_neg (by omega), if_neg (by omega), if_pos (by omega), if_pos h2, if_neg h1]
    · rw [if_neg h2]
      by_cases h3 : j < k + ys.length + (xs.length - k)
      · rw [if_pos (by omega)]
      · rw [if_neg (by omega), if_neg (by omega), if_neg (by omega)]
        rw [List.getElem?_eq_none (by simp; omega)]

/-- The hole opened by `insert_without_reallocation`, filled. -/
theorem written_shifted (xs ys : List V) (k : Nat) (h : k ≤ xs.length) :
    written (shifted (cells xs) k (k + ys.length) (xs.length - k)) k ys =
      cells (xs.take k ++ ys ++ xs.drop k) := by
  have e : (xs.take k).length = k := by simp [h]
  funext j
  simp only [written, shifted, cells, List.getElem?_append, List.length_append, e]
  by_cases h1 : j < k
  · rw [if_neg (by omega), if_neg (by omega), if_neg (by omega), if_pos (by omega), if_pos h1]
    rw [List.getElem?_take_of_lt h1]
  · by_cases h2 : j < k + ys.length
    · rw [if_pos (by omega), if_pos h2, if_neg h1]
    · rw [if_neg (by omega), if_neg h2, List.getElem?_drop]
      by_cases h3 : j < k + ys.length + (xs.length - k)
      · rw [if_pos (by omega)]; congr 1; omega
      · rw [if_neg (by omega)]
        rw [List.getElem?_eq_none (l := xs) (i := k + _) (by omega)]
        split
        · rfl
        · rw [List.getElem?_eq_none (by omega)]

/-- Closing the hole again. -/
theorem shifted_back (xs : List V) (k n : Nat) (h : k ≤ xs.length) (hn : 0 < n) :
    shifted (shifted (cells xs) k (k + n) (xs.length - k)) (k + n) k (xs.length - k) = cells xs := by
  funext j
  simp only [shifted, cells]
  by_cases h1 : j < k
  · repeat rw [if_neg (by omega)]
  · by_cases h2 : j < xs.length
    · rw [if_pos (by omega), if_pos (by omega)]; congr 1; omega
    · rw [List.getElem?_eq_none (l := xs) (i := j) (by omega)]
      rw [if_neg (by omega)]
      by_cases h3 : k + n ≤ j ∧ j < k + n + (xs.length - k)
      · rw [if_pos h3]
      · rw [if_neg h3, if_neg (by omega), if_neg (by omega)]

theorem eraseLoop_eq (cap middle : Nat) : ∀ (rest : Nat) (m : Cells V) (target source : Nat),
    target ≤ middle → middle ≤ source → source + rest ≤ cap →
    (∀ j, target ≤ j → j < middle → (m j).isSome) →
    (∀ j, source ≤ j → j < source + rest → (m j).isSome) →
    eraseLoop cap middle rest m target source =
      some (shifted m source target (min rest (middle - target)), target + min rest (middle - target),
        source + min rest (middle - target)) := by
  intro rest
  induction rest with
  | zero =>
    intro m target source h1 h2 h3 _ _
    simp only [eraseLoop, Nat.zero_min, Nat.add_zero, Option.some.injEq, Prod.mk.injEq, and_true]
    funext j; simp only [shifted]; rw [if_neg (by omega), if_neg (by omega)]
  | succ rest ih =>
    intro m target source h1 h2 h3 h4 h5
    simp only [eraseLoop]
    by_cases he : target = middle
    · subst he
      rw [if_pos rfl, Nat.sub_self, Nat.min_zero]
      simp only [Nat.add_zero, Option.some.injEq, Prod.mk.injEq, and_true]
      funext j; simp only [shifted]; rw [if_neg (by omega), if_neg (by omega)]
    · rw [if_neg he, destroy_eq (by omega) (h4 target (by omega) (by omega))]
      simp only [Option.bind_some, relocateAt, readCell]
      obtain ⟨v, hv⟩ := Option.isSome_iff_exists.1 (h5 source (by omega) (by omega))
      rw [if_pos (by omega), upd_other _ _ (by omega), hv]
      simp only
      rw [construct_eq (by omega) (by rw [upd_same])]
      simp only [Option.bind_some]
      rw [destroy_eq (by omega) (by rw [upd_other _ _ (by omega), upd_other _ _ (by omega), hv]; rfl)]
      simp only [Option.bind_some]
      rw [ih _ _ _ (by omega) (by omega) (by omega)]
      · have e : min (rest + 1) (middle - target) = min rest (middle - (target + 1)) + 1 := by omega
        rw [e]
        simp only [Option.some.injEq, Prod.mk.injEq]
        refine ⟨?_, by omega, by omega⟩
        generalize hi : min rest (middle - (target + 1)) = i
        funext j; simp only [shifted, upd]
        by_cases g1 : j = target
        · subst g1
          rw [if_neg (by omega), if_neg (by omega), if_neg (by omega), if_pos rfl, if_pos (by omega)]
          rw [Nat.sub_self, Nat.zero_add, hv]
        · by_cases g2 : target ≤ j ∧ j < target + (i + 1)
          · rw [if_pos (by omega), if_pos g2, if_neg (by omega), if_neg (by omega), if_neg (by omega)]
            congr 1; omega
          · rw [if_neg (by omega), if_neg g2]
            by_cases g3 : source ≤ j ∧ j < source + (i + 1)
            · rw [if_pos g3]
              by_cases g4 : j = source
              · subst g4; rw [if_neg (by omega), if_pos rfl]
              · rw [if_pos (by omega)]
            · rw [if_neg (by omega), if_neg g3, if_neg (by omega), if_neg g1, if_neg g1]
      · intro j g1 g2
        rw [upd_other _ _ (by omega), upd_other _ _ (by omega), upd_other _ _ (by omega)]
        exact h4 j (by omega) (by omega)
      · intro j g1 g2
        rw [upd_other _ _ (by omega), upd_other _ _ (by omega), upd_other _ _ (by omega)]
        exact h5 j (by omega) (by omega)

theorem eraseCells_eq (xs : List V) (first middle cap : Nat) (h1 : first < middle) (h2 : middle ≤ xs.length)
    (h3 : xs.length ≤ cap) :
    eraseCells first middle xs.length cap (cells xs) = some (cells (xs.take first ++ xs.drop middle)) := by
  have e : (xs.take first).length = first := by simp; omega
  simp only [eraseCells]
  rw [eraseLoop_eq cap middle _ _ _ _ (by omega) (by omega) (by omega)
    (fun j _ g => cells_live (by omega)) (fun j _ g => cells_live (by omega))]
  simp only
  by_cases hs : middle + min (xs.length - middle) (middle - first) ≠ xs.length
  · rw [if_pos hs]
    have hmin : min (xs.length - middle) (middle - first) = middle - first := by omega
    rw [hmin] at hs ⊢
    rw [relocFwd_eq cap _ _ _ _ (by omega) (by omega)]
    · congr 1; funext j
      simp only [shifted, cells, List.getElem?_append, e, List.getElem?_drop]
      by_cases g1 : j < first
      · rw [if_neg (by omega), if_neg (by omega), if_neg (by omega), if_neg (by omega), if_pos g1]
        rw [List.getElem?_take_of_lt g1]
      · rw [if_neg g1]
        by_cases g2 : j < middle
        · rw [if_neg (by omega), if_neg (by omega), if_pos (by omega)]; congr 1; omega
        · by_cases g3 : j < middle + (xs.length - (middle + (middle - first)))
          · rw [if_pos (by omega), if_neg (by omega), if_neg (by omega)]; congr 1; omega
          · rw [if_neg (by omega), List.getElem?_eq_none (l := xs) (i := middle + _) (by omega)]
            by_cases g4 : middle + (middle - first) ≤ j ∧ j < middle + (middle - first) + (xs.length - (middle + (middle - first)))
            · rw [if_pos g4]
            · rw [if_neg g4, if_neg (by omega)]
              by_cases g5 : middle ≤ j ∧ j < middle + (middle - first)
              · rw [if_pos g5]
              · rw [if_neg g5, List.getElem?_eq_none (by omega)]
    · intro j g1 g2
      simp only [shifted]
      rw [if_neg (by omega), if_neg (by omega)]; exact cells_live (by omega)
    · intro j g1 g2 g3
      simp only [shifted]
      rw [if_neg (by omega), if_pos (by omega)]
  · rw [if_neg hs]
    have hmin : min (xs.length - middle) (middle - first) = xs.length - middle := by omega
    rw [hmin] at hs ⊢
    rw [destroyRange_eq cap _ _ _ (by omega)]
    · congr 1; funext j
      simp only [cleared, shifted, cells, List.getElem?_append, e, List.getElem?_drop]
      by_cases g1 : j < first
      · rw [if_neg (by omega), if_neg (by omega), if_neg (by omega), if_pos g1]
        rw [List.getElem?_take_of_lt g1]
      · rw [if_neg g1]
        by_cases g2 : j < first + (xs.length - middle)
        · rw [if_neg (by omega), if_pos (by omega)]; congr 1; omega
        · rw [List.getElem?_eq_none (l := xs) (i := middle + _) (by omega)]
          by_cases g3 : j < middle
          · rw [if_pos (by omega)]
          · rw [if_neg (by omega), if_neg (by omega)]
            by_cases g4 : middle ≤ j ∧ j < middle + (xs.length - middle)
            · rw [if_pos g4]
            · rw [if_neg g4, List.getElem?_eq_none (by omega)]
    · intro j g1 g2
      simp only [shifted]
      rw [if_neg (by omega), if_neg (by omega)]; exact cells_live (by omega)

theorem findIfCells_eq (p : V → Bool) (cap : Nat) (xs : List V) (h : xs.length ≤ cap) :
    ∀ (n k : Nat), k + n = xs.length →
      findIfCells p cap (cells xs) k n = some (k + (xs.drop k).findIdx p) := by
  intro n
  induction n with
  | zero => intro k hk; simp [findIfCells, List.drop_eq_nil_of_le (by omega : xs.length ≤ k)]
  | succ n ih =>
    intro k hk
    have hk' : k < xs.length := by omega
    simp only [findIfCells, readCell]
    rw [if_pos (by omega)]
    have : cells xs k = some xs[k] := by simp [cells, hk']
    rw [this]
    simp only
    rw [List.drop_eq_getElem_cons hk', List.findIdx_cons]
    by_cases hp : p xs[k]
    · simp [hp]
    · simp only [hp, Bool.false_eq_true, if_false, cond_false]
      rw [ih (k + 1) (by omega)]; congr 1; omega

theorem eraseIfLoop_eq (p : V → Bool) (mv : V → V) (cap : Nat) : ∀ (R K J : List V) (result : Nat),
    J ≠ [] → (K ++ J ++ R).length ≤ cap →
    ∃ J', eraseIfLoop p mv cap R.length (cells (K ++ J ++ R)) K.length (K.length + J.length) result =
      some (cells (K ++ R.filter (fun v => !p v) ++ J'), K.length + (R.filter (fun v => !p v)).length,
        result + (R.filter (fun v => !p v)).length) ∧
      (K ++ R.filter (fun v => !p v) ++ J').length = (K ++ J ++ R).length := by
  intro R
  induction R with
  | nil => intro K J result _ _; exact ⟨J, by simp [eraseIfLoop], by simp⟩
  | cons v R ih =>
    intro K J result hJ hc
    simp only [List.length_append, List.length_cons] at hc
    have hJ' : 0 < J.length := List.length_pos_iff.2 hJ
    have r1 : readCell cap (cells (K ++ J ++ v :: R)) (K.length + J.length) = some v := by
      simp only [readCell, cells]; rw [if_pos (by omega)]
      rw [List.getElem?_append_right (by simp)]; simp
    have r2 : ∃ u, readCell cap (cells (K ++ J ++ v :: R)) K.length = some u := by
      simp only [readCell, cells]; rw [if_pos (by omega)]
      exact ⟨_, List.getElem?_eq_getElem (by simp; omega)⟩
    obtain ⟨u, r2⟩ := r2
    simp only [List.length_cons, eraseIfLoop, r1, r2]
    by_cases hp : p v
    · simp only [hp, if_true, Bool.not_true, Bool.false_eq_true, not_false_eq_true, List.filter_cons_of_neg]
      obtain ⟨J', e1, e2⟩ := ih K (J ++ [v]) result (by simp) (by simp; omega)
      refine ⟨J', ?_, ?_⟩
      · rw [← e1]
        have : K ++ (J ++ [v]) ++ R = K ++ J ++ v :: R := by simp
        rw [this, List.length_append, List.length_singleton, Nat.add_assoc]
      · rw [e2]; simp
    · obtain ⟨j, J1, rfl⟩ := List.exists_cons_of_ne_nil hJ
      simp only [hp, Bool.not_false, if_false, List.filter_cons_of_pos, Bool.false_eq_true]
      obtain ⟨J', e1, e2⟩ := ih (K ++ [v]) (J1 ++ [mv v]) (result + 1) (by simp) (by simp at hc ⊢; omega)
      refine ⟨J', ?_, ?_⟩
      · have hl : K.length + 1 = (K ++ [v]).length := by simp
        have hset : upd (upd (cells (K ++ j :: J1 ++ v :: R)) K.length (some v)) (K.length + (j :: J1).length) (some (mv v)) =
            cells (K ++ [v] ++ (J1 ++ [mv v]) ++ R) := by
          rw [upd_cells (by simp), upd_cells (by simp)]
          congr 1
          simp [List.set_append]
        rw [hset]
        have hl2 : K.length + (j :: J1).length + 1 = (K ++ [v]).length + (J1 ++ [mv v]).length := by
          simp; omega
        rw [hl2, hl, e1]
        simp only [List.append_assoc, List.singleton_append, List.length_append, List.length_cons,
          List.length_nil, Option.some.injEq, Prod.mk.injEq, true_and]
        omega
      · simp only [List.length_append, List.length_cons, List.length_nil] at e2 ⊢; omega

theorem copyTruncate_eq (left : V) (cap : Nat) : ∀ (xs pre : List V) (src : List (Item V)),
    pre.length + xs.length ≤ cap →
    (∀ j, (src.take xs.length).findIdx? (·.throws) = some j →
      ∃ a b, copyTruncate left cap xs.length (cells (pre ++ xs)) pre.length src =
        .exn (cells (pre ++ ((src.map (·.val)).take j ++ left :: xs.drop (j + 1))), a, b)) ∧
    ((src.take xs.length).findIdx? (·.throws) = none →
      copyTruncate left cap xs.length (cells (pre ++ xs)) pre.length src =
        .ok (cells (pre ++ ((src.map (·.val)).take xs.length ++ xs.drop src.length)),
          pre.length + min src.length xs.length, src.drop xs.length)) := by
  intro xs
  induction xs with
  | nil => intro pre src _; simp [copyTruncate]
  | cons x xs ih =>
    intro pre src hc
    simp only [List.length_cons] at hc
    cases src with
    | nil => simp [copyTruncate]
    | cons it its =>
      have r : readCell cap (cells (pre ++ x :: xs)) pre.length = some x := by
        simp only [readCell, cells]; rw [if_pos (by omega)]; simp
      simp only [List.length_cons, copyTruncate, r, List.take_succ_cons, List.findIdx?_cons]
      rcases Bool.eq_false_or_eq_true it.throws with ht | ht
      · simp only [ht, if_true]
        constructor
        · intro j hj
          simp only [Option.some.injEq] at hj; subst hj
          refine ⟨pre.length, it :: its, ?_⟩
          rw [upd_cells (by simp)]
          simp [List.set_append]
        · intro h; simp at h
      · simp only [ht, Bool.false_eq_true, if_false]
        have hset : upd (cells (pre ++ x :: xs)) pre.length (some it.val) = cells ((pre ++ [it.val]) ++ xs) := by
          rw [upd_cells (by simp)]; simp [List.set_append]
        rw [hset]
        have hl : pre.length + 1 = (pre ++ [it.val]).length := by simp
        rw [hl]
        obtain ⟨i1, i2⟩ := ih (pre ++ [it.val]) its (by simp; omega)
        constructor
        · intro j hj
          obtain ⟨j', h1, h2⟩ := Option.map_eq_some_iff.1 hj
          obtain ⟨a, b, e⟩ := i1 j' h1
          refine ⟨a, b, ?_⟩
          rw [e]; subst h2; simp
        · intro hj
          rw [i2 (by simpa using hj)]
          simp only [List.map_cons, List.append_assoc, List.singleton_append,
            List.length_append, List.length_cons, List.length_nil, List.take_succ_cons,
            List.drop_succ_cons, List.cons_append, Out.ok.injEq, Prod.mk.injEq, and_true, true_and]
          exact ⟨rfl, by omega⟩

end Verif.Containers
