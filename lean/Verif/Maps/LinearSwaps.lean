import Verif.Algo.SwapProgs
import Verif.Maps.Throws

/-!
# Linear maps whose swaps and comparisons throw (properties C81 and C92)

`remove_duplicates` as a program of reads, comparisons and swaps (`SwapProgs.lean`), each comparison and each swap of which may throw.
-/

namespace Verif.Maps.Swapping

open Verif Algo Algo.Swapping Mem

variable {κ μ τ : Type}

/-! ## The algorithm -/

/-- The loop of `any` over `n` elements with the predicate `matches_this_value` (`algorithms/all_any_none.cpp` 55-57, `algorithms/find.cpp` 28-33, `linear_map.cpp` 179-181). The key of
`*starting_from` is read once, where the code reads it for every element; nothing changes in between. -/
def anyS (key : κ) : Nat → Nat → SProg (κ × μ) (κ × κ) Bool
  | 0, _ => .ret false
  | n + 1, i => .get i fun verified => .ask (key, verified.1) fun b => if b then .ret true else anyS key n (i + 1)

/-- The loop of `remove_duplicates` (`linear_map.cpp` 177-191), `n` being the distance from `starting_from` to `to_remove`. Returns `to_remove`. -/
def removeLoopS (first : Nat) : Nat → Nat → SProg (κ × μ) (κ × κ) Nat
  | 0, startingFrom => .ret startingFrom
  | n + 1, startingFrom => .get startingFrom fun value =>
    (anyS value.1 (startingFrom - first) first).bind fun found =>
      if found then
        let toRemove := startingFrom + (n + 1) - 1
        if startingFrom = toRemove then .ret toRemove else .swap startingFrom toRemove (removeLoopS first n startingFrom)
      else removeLoopS first n (startingFrom + 1)

/-- `remove_duplicates` before `erase_to_end` (`linear_map.cpp` 174-191) in a map whose elements are in `[first, last)`. -/
def removeDuplicatesS (first startingFrom last : Nat) : SProg (κ × μ) (κ × κ) Nat := removeLoopS first (last - startingFrom) startingFrom

/-! ## What it leaves -/

/-- `any` changes nothing: it throws, or goes on with its answer, which is right if the comparison is. -/
theorem anyS_exec {R : Type} (f : τ → κ × κ → Option (Bool × τ)) (sw : Swaps (κ × μ)) (key : κ) (g : Bool → SProg (κ × μ) (κ × κ) R) {j : Nat} {m : Mem (κ × μ)} :
    ∀ (vs : List (κ × μ)) (i : Nat) (t : τ), m.Seg i vs →
      ((anyS key vs.length i).bind g).exec f sw t j m = .asked m ∨
      ∃ b t', ((anyS key vs.length i).bind g).exec f sw t j m = (g b).exec f sw t' j m ∧
        ∀ eq : κ → κ → Bool, Honest (fun q => eq q.1 q.2) f → b = vs.any fun e => eq key e.1
  | [], i, t, _ => .inr ⟨false, t, rfl, fun _ _ => rfl⟩
  | v :: vs, i, t, h => by
    have h0 : m i = some v := h 0 (by simp)
    have hs : m.Seg (i + 1) vs := fun k hk => by
      have := h (k + 1) (by simpa using hk)
      rw [show i + 1 + k = i + (k + 1) by omega]
      simpa using this
    simp only [List.length_cons, anyS, SProg.bind, SProg.exec, h0]
    cases hf : f t (key, v.1) with
    | none => exact .inl rfl
    | some r =>
      obtain ⟨b, t'⟩ := r
      dsimp only
      cases b with
      | true =>
        refine .inr ⟨true, t', rfl, fun eq hq => ?_⟩
        have := hq _ _ _ _ hf
        simp only at this
        simp [← this]
      | false =>
        have ih := anyS_exec f sw key g (j := j) vs (i + 1) t' hs
        rcases ih with ih | ⟨b, t'', e, hb⟩
        · exact .inl ih
        · refine .inr ⟨b, t'', e, fun eq hq => ?_⟩
          have := hq _ _ _ _ hf
          simp only at this
          rw [hb eq hq]
          simp [← this]

/-- The elements of the map were `xs` and `zs`: those of `zs` before `k` have new keys, each once, and those from `l` on have keys that are there. -/
def SortedOut (eq : κ → κ → Bool) (xs zs : List (κ × μ)) (k l : Nat) : Prop :=
  ((xs ++ zs.take k).Pairwise fun x y => eq y.1 x.1 = false) ∧ ∀ z ∈ zs.drop l, ∃ x ∈ xs ++ zs.take k, eq z.1 x.1 = true

theorem swapX_none {α : Type} {m : Mem α} {a b : Nat} {x y : α} (ha : m a = some x) (hb : m b = some y) : ∃ m', swapX none m a b = .ok m' ∧ m.swapAt a b = some m' := by
  simp [swapX, ha, hb, Mem.swapAt]

theorem removeLoopS_exec (f : τ → κ × κ → Option (Bool × τ)) (sw : Swaps (κ × μ)) {first : Nat} {xs ys : List (κ × μ)} {m0 : Mem (κ × μ)} :
    ∀ (n d : Nat) (zs : List (κ × μ)) (m : Mem (κ × μ)) (t : τ) (j : Nat), m.Seg first xs → m.Seg (first + xs.length) zs → zs.Perm ys →
      m0.SameOff m (InRange (first + xs.length) ys.length) → d + n ≤ ys.length →
      match (removeLoopS first n (first + xs.length + d)).exec f sw t j m with
      | .returned r m' => ∃ k ws, r = first + xs.length + k ∧ k ≤ ys.length ∧ ws.Perm ys ∧ m'.Seg (first + xs.length) ws ∧
          m0.SameOff m' (InRange (first + xs.length) ys.length) ∧
          ∀ eq : κ → κ → Bool, Honest (fun q => eq q.1 q.2) f → SortedOut eq xs zs d (d + n) → SortedOut eq xs ws k k
      | .asked m' => ∃ ws, ws.Perm ys ∧ m'.Seg (first + xs.length) ws ∧ m0.SameOff m' (InRange (first + xs.length) ys.length)
      | .swapped m' => Disturbed sw (first + xs.length) ys m0 m'
      | .ub => False
  | 0, d, zs, m, t, j, hx, hz, hp, hs, hd => ⟨d, zs, rfl, by omega, hp, hz, hs, fun _ _ h => h⟩
  | n + 1, d, zs, m, t, j, hx, hz, hp, hs, hd => by
    have hl := hp.length_eq
    have hd' : d < zs.length := by omega
    have hg : m (first + xs.length + d) = some zs[d] := hz d hd'
    have hseg : m.Seg first (xs ++ zs.take d) := by
      refine seg_append.2 ⟨hx, fun i hi => ?_⟩
      rw [List.length_take] at hi
      rw [hz i (by omega), List.getElem_take]
    have hlen : first + xs.length + d - first = (xs ++ zs.take d).length := by rw [List.length_append, List.length_take]; omega
    simp only [removeLoopS, SProg.exec, hg]
    rw [hlen]
    rcases anyS_exec f sw zs[d].1 (fun found =>
      if found then
        if first + xs.length + d = first + xs.length + d + (n + 1) - 1 then .ret (first + xs.length + d + (n + 1) - 1)
        else .swap (first + xs.length + d) (first + xs.length + d + (n + 1) - 1) (removeLoopS first n (first + xs.length + d))
      else removeLoopS first n (first + xs.length + d + 1)) (j := j) (xs ++ zs.take d) first t hseg with e | ⟨b, t', e, hb⟩
    · rw [e]; exact ⟨zs, hp, hz, hs⟩
    · rw [e]
      cases b with
      | false =>
        simp only [Bool.false_eq_true, if_false]
        have ih := removeLoopS_exec f sw n (d + 1) zs m t' j hx hz hp hs (by omega)
        rw [show first + xs.length + (d + 1) = first + xs.length + d + 1 by omega] at ih
        revert ih
        cases (removeLoopS first n (first + xs.length + d + 1)).exec f sw t' j m with
        | ub => exact id
        | asked _ => exact id
        | swapped _ => exact id
        | returned r m' =>
          rintro ⟨k, ws, h1, h2, h3, h4, h5, h6⟩
          refine ⟨k, ws, h1, h2, h3, h4, h5, fun eq hq ho => h6 eq hq ?_⟩
          have hb := hb eq hq
          obtain ⟨o1, o2⟩ := ho
          have et : zs.take (d + 1) = zs.take d ++ [zs[d]] := List.take_succ_eq_append_getElem hd'
          refine ⟨?_, fun z hz => ?_⟩
          · rw [et, ← List.append_assoc]
            refine List.pairwise_append.2 ⟨o1, List.pairwise_singleton _ _, fun a ha b' hb' => ?_⟩
            rw [List.mem_singleton] at hb'
            subst hb'
            have := List.any_eq_false.1 hb.symm a ha
            simpa using this
          · rw [show d + 1 + n = d + (n + 1) by omega] at hz
            obtain ⟨x, x1, x2⟩ := o2 z hz
            refine ⟨x, ?_, x2⟩
            rw [et, ← List.append_assoc]
            exact List.mem_append_left _ x1
      | true =>
        simp only [if_true]
        by_cases hn : n = 0
        · subst hn
          rw [if_pos (by omega)]
          refine ⟨d, zs, by omega, by omega, hp, hz, hs, fun eq hq ho => ⟨ho.1, fun z hz => ?_⟩⟩
          have hb := hb eq hq
          rw [List.drop_eq_getElem_cons hd', List.mem_cons] at hz
          rcases hz with rfl | hz
          · obtain ⟨x, x1, x2⟩ := List.any_eq_true.1 hb.symm
            exact ⟨x, x1, x2⟩
          · exact ho.2 z hz
        · rw [if_neg (by omega)]
          have he : d + n < zs.length := by omega
          have hg2 : m (first + xs.length + d + (n + 1) - 1) = some zs[d + n] := by
            rw [show first + xs.length + d + (n + 1) - 1 = first + xs.length + (d + n) by omega]; exact hz _ he
          simp only [SProg.exec]
          cases hsw : sw j with
          | some p =>
            obtain ⟨x', y'⟩ := p
            simp only [swapX, hg, hg2]
            refine ⟨j, x', y', zs, d, d + n, hsw, hp, by omega, by omega, ?_, fun a ha => ?_⟩
            · intro i hi
              simp only [List.length_set] at hi
              by_cases e1 : i = d + n
              · subst e1
                rw [show first + xs.length + (d + n) = first + xs.length + d + (n + 1) - 1 by omega, upd_same]
                simp
              · rw [upd_other _ _ (by omega), List.getElem_set_ne (by omega)]
                by_cases e2 : i = d
                · subst e2; rw [upd_same]; simp
                · rw [upd_other _ _ (by omega), List.getElem_set_ne (by omega)]; exact hz i hi
            · rw [upd_other _ _ (by rintro rfl; exact ha (by constructor <;> omega)), upd_other _ _ (by rintro rfl; exact ha (by constructor <;> omega))]
              exact hs a ha
          | none =>
            obtain ⟨m1, e1, e2⟩ := swapX_none hg hg2
            rw [e1]
            dsimp only
            obtain ⟨m2, e3, s1, s2⟩ := swapAt_spec (i := d) (j := d + n) hz hd' he
            rw [show first + xs.length + d + (n + 1) - 1 = first + xs.length + (d + n) by omega, e3] at e2
            cases e2
            rw [hl] at s2
            have ih := removeLoopS_exec f sw (first := first) (xs := xs) (ys := ys) (m0 := m0) n d (swapped zs d (d + n)) m1 t' (j + 1)
              (hx.frame s2 fun i hi => by unfold InRange; omega) s1 (swapped_perm.trans hp) (hs.trans s2) (by omega)
            revert ih
            cases (removeLoopS first n (first + xs.length + d)).exec f sw t' (j + 1) m1 with
            | ub => exact id
            | asked _ => exact id
            | swapped _ => exact id
            | returned r m' =>
              rintro ⟨k, ws, h1, h2, h3, h4, h5, h6⟩
              refine ⟨k, ws, h1, h2, h3, h4, h5, fun eq hq ho => h6 eq hq ?_⟩
              have hb := hb eq hq
              have get : ∀ i, (swapped zs d (d + n))[i]? = if i = d + n then zs[d]? else if i = d then zs[d + n]? else zs[i]? :=
                fun i => by rw [swapped_get hd' he]
              have et : (swapped zs d (d + n)).take d = zs.take d := by
                refine List.ext_getElem? fun i => ?_
                rw [List.getElem?_take, List.getElem?_take]
                split
                · rw [get, if_neg (by omega), if_neg (by omega)]
                · rfl
              have ed : (swapped zs d (d + n)).drop (d + n) = zs[d] :: zs.drop (d + (n + 1)) := by
                refine List.ext_getElem? fun i => ?_
                rw [List.getElem?_drop, get]
                cases i with
                | zero => rw [if_pos (by omega)]; simp [hd']
                | succ i => rw [if_neg (by omega), if_neg (by omega)]; simp; congr 1; omega
              refine ⟨by rw [et]; exact ho.1, fun z hz => ?_⟩
              rw [et]
              rw [ed, List.mem_cons] at hz
              rcases hz with rfl | hz
              · obtain ⟨x, x1, x2⟩ := List.any_eq_true.1 hb.symm
                exact ⟨x, x1, x2⟩
              · exact ho.2 z hz

/-- **C92**, insertion of a range into a linear_map, from the moment on when the elements `ys` of the range are behind those of the map, `xs`: whatever the
comparison answers and wherever a comparison or a swap throws, nothing undefined happens and the elements that were in the map are where they were, with
the values they had (so that `C81_linear_still_found` finds them). An exception of a comparison leaves the others in some order, an exception of a swap
leaves all but two of them. If nothing throws and the comparison does not contradict `eq`, then every key is there once: the elements before the result
have different keys, and those behind it, which are erased, have keys that are there. -/
theorem C92_linear_map_insert (f : τ → κ × κ → Option (Bool × τ)) (sw : Swaps (κ × μ)) (t : τ) {first : Nat} {xs ys : List (κ × μ)} {m : Mem (κ × μ)}
    (h : m.Seg first (xs ++ ys)) :
    match (removeDuplicatesS first (first + xs.length) (first + xs.length + ys.length)).exec f sw t 0 m with
    | .returned r m' => ∃ k ws, r = first + xs.length + k ∧ k ≤ ys.length ∧ ws.Perm ys ∧ m'.Seg first (xs ++ ws) ∧
        m.SameOff m' (InRange (first + xs.length) ys.length) ∧
        ∀ eq : κ → κ → Bool, Honest (fun q => eq q.1 q.2) f → (xs.Pairwise fun x y => eq y.1 x.1 = false) →
          ((xs ++ ws.take k).Pairwise fun x y => eq y.1 x.1 = false) ∧ ∀ z ∈ ws.drop k, ∃ x ∈ xs ++ ws.take k, eq z.1 x.1 = true
    | .asked m' => ∃ ws, ws.Perm ys ∧ m'.Seg first (xs ++ ws) ∧ m.SameOff m' (InRange (first + xs.length) ys.length)
    | .swapped m' => m'.Seg first xs ∧ Disturbed sw (first + xs.length) ys m m'
    | .ub => False := by
  obtain ⟨hx, hy⟩ := seg_append.1 h
  have key := removeLoopS_exec f sw (xs := xs) (m0 := m) ys.length 0 ys m t 0 hx hy (.refl _) (fun _ _ => rfl) (by omega)
  have old : ∀ m' : Mem (κ × μ), m.SameOff m' (InRange (first + xs.length) ys.length) → m'.Seg first xs :=
    fun m' hs => hx.frame hs fun i hi => by unfold InRange; omega
  unfold removeDuplicatesS
  rw [show first + xs.length + ys.length - (first + xs.length) = ys.length by omega]
  rw [Nat.add_zero] at key
  revert key
  cases (removeLoopS first ys.length (first + xs.length)).exec f sw t 0 m with
  | ub => exact id
  | asked m' =>
    rintro ⟨ws, h1, h2, h3⟩
    exact ⟨ws, h1, seg_append.2 ⟨old m' h3, h2⟩, h3⟩
  | swapped m' =>
    intro hd
    obtain ⟨_, _, _, _, _, _, _, _, _, _, _, hs⟩ := id hd
    exact ⟨old m' hs, hd⟩
  | returned r m' =>
    rintro ⟨k, ws, h1, h2, h3, h4, h5, h6⟩
    refine ⟨k, ws, h1, h2, h3, seg_append.2 ⟨old m' h5, h4⟩, h5, fun eq hq hu => h6 eq hq ⟨by simpa using hu, fun z hz => ?_⟩⟩
    rw [Nat.zero_add, List.drop_length] at hz
    cases hz

/-- Three elements are inserted into a map with one; the first of them has its key, and so has the last. The first swap puts the last element into the
place of the first one of the range, where it is compared again. -/
example : ∃ m, (removeDuplicatesS 0 1 4).exec (fun (t : Unit) (q : Nat × Nat) => some (q.1 == q.2, t)) (fun _ => none) () 0
    (only [(1, 10), (1, 20), (2, 30), (1, 40)]) = .returned 2 m ∧ (List.range 4).map m = [some (1, 10), some (2, 30), some (1, 40), some (1, 20)] := ⟨_, rfl, rfl⟩

/-- The second swap throws and leaves two other values. -/
example : ∃ m, (removeDuplicatesS 0 1 4).exec (fun (t : Unit) (q : Nat × Nat) => some (q.1 == q.2, t)) (fun k => if k = 1 then some ((7, 7), (8, 8)) else none) () 0
    (only [(1, 10), (1, 20), (2, 30), (1, 40)]) = .swapped m ∧ (List.range 4).map m = [some (1, 10), some (7, 7), some (8, 8), some (1, 20)] := ⟨_, rfl, rfl⟩

end Verif.Maps.Swapping
