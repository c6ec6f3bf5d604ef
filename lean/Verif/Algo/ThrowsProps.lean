import Mathlib.Data.List.Permutation
import Mathlib.Tactic.Ring
import Verif.Algo.Throws
import Verif.Algo.CallsProps

/-!
# Rearranging algorithms and the function objects they are given (C78, C79): the claims
-/

namespace Verif.Algo

open Prog

variable {α S Q R R' τ : Type}

/-! ## Rearrangements -/

/-- The `n` elements from `first` on in `m` are there in `s`, in some order; nothing else has changed. -/
structure Shuffled (first n : Nat) (m s : Mem α) : Prop where
  perm : ∀ xs : List α, xs.length = n → m.Seg first xs → ∃ ys, ys.Perm xs ∧ s.Seg first ys
  rest : m.SameOff s (InRange first n)

theorem Shuffled.refl (first n : Nat) (m : Mem α) : Shuffled first n m m := ⟨fun xs _ h => ⟨xs, .refl _, h⟩, fun _ _ => rfl⟩

theorem Shuffled.trans {first n : Nat} {m s t : Mem α} (h1 : Shuffled first n m s) (h2 : Shuffled first n s t) : Shuffled first n m t := by
  refine ⟨fun xs hl hx => ?_, h1.rest.trans h2.rest⟩
  obtain ⟨ys, p1, s1⟩ := h1.perm xs hl hx
  obtain ⟨zs, p2, s2⟩ := h2.perm ys (p1.length_eq.trans hl) s1
  exact ⟨zs, p2.trans p1, s2⟩

theorem Shuffled.of_seg {first n : Nat} {m s : Mem α} {xs ys : List α} (hx : m.Seg first xs) (hl : xs.length = n) (hp : ys.Perm xs) (hy : s.Seg first ys)
    (hr : m.SameOff s (InRange first n)) : Shuffled first n m s := by
  refine ⟨fun zs hz hs => ?_, hr⟩
  have : zs = xs := by
    refine List.ext_getElem (by omega) fun i h1 h2 => ?_
    have a := hs i h1
    rw [hx i h2] at a
    exact (Option.some.inj a).symm
  subst this
  exact ⟨ys, hp, hy⟩

/-- Rearranging a part. -/
theorem Shuffled.sub {first n a k : Nat} {m s : Mem α} (h : Shuffled (first + a) k m s) (hk : a + k ≤ n) : Shuffled first n m s := by
  refine ⟨fun xs hl hx => ?_, h.rest.mono fun x hx => ⟨by omega, by omega⟩⟩
  have hsplit : xs = xs.take a ++ ((xs.drop a).take k ++ (xs.drop a).drop k) := by simp
  have htl : (xs.take a).length = a := by simp; omega
  have hkl : ((xs.drop a).take k).length = k := by simp; omega
  rw [hsplit, Mem.seg_append, Mem.seg_append, htl, hkl] at hx
  obtain ⟨ys, p, hs⟩ := h.perm _ hkl hx.2.1
  have hyl : ys.length = k := p.length_eq.trans hkl
  refine ⟨xs.take a ++ (ys ++ (xs.drop a).drop k), ?_, ?_⟩
  · conv_rhs => rw [hsplit]
    exact (p.append_right _).append_left _
  · rw [Mem.seg_append, Mem.seg_append, htl, hyl]
    refine ⟨hx.1.frame h.rest fun i hi => ?_, hs, hx.2.2.frame h.rest fun i hi => ?_⟩
    · rw [htl] at hi; simp only [InRange]; omega
    · simp only [InRange]; omega

theorem Shuffled.raw {first n : Nat} {m s : Mem α} (h : Shuffled first n m s) {xs : List α} (hx : m.Seg first xs) (hl : xs.length = n) {temp k : Nat}
    (hr : m.Raw temp k) : s.Raw temp k := hr.frame h.rest fun _ hi => hl ▸ hx.not_raw hr hi

theorem Shuffled.swap {first : Nat} {xs : List α} {m : Mem α} (hx : m.Seg first xs) {i j : Nat} (hi : i < xs.length) (hj : j < xs.length) :
    ∃ m' ys, m.swapAt (first + i) (first + j) = some m' ∧ Shuffled first xs.length m m' ∧ m'.Seg first ys ∧ ys.length = xs.length := by
  obtain ⟨m', e, s, r⟩ := swapAt_spec hx hi hj
  exact ⟨m', _, e, .of_seg hx rfl swapped_perm s r, s, swapped_length⟩

/-! ## Searches -/

variable {strict : Bool} {P : S → Prop} {n : Nat}

theorem fine_read {x : Option α} {v : α} (hx : x = some v) {g : α → Prog S Q R} {post : Nat → R → Prop} (H : Fine strict P post n (g v)) :
    Fine strict P post n (lift x >>= g : Prog S Q R) := by
  subst hx; exact Fine.seq H

theorem fine_call1 {p : α → Prog S Q Bool} {s : S} {q : α → Q} {neg : Bool} (hp : Calls1 p s q neg) {x : α} {g : Bool → Prog S Q R}
    {post : Nat → R → Prop} (hs : P s) (H : ∀ b, Fine strict P post (n + 1) (g (b != neg))) : Fine strict P post n (p x >>= g : Prog S Q R) := by
  refine Fine.seq ?_
  rw [hp x]
  exact ⟨hs, fun b => H b⟩

theorem findIfLoopA_fine {m : Mem α} {p : α → Prog S Q Bool} {s : S} {q : α → Q} {neg : Bool} (hp : Calls1 p s q neg) {xs : List α} {first : Nat}
    (hx : m.Seg first xs) (hs : P s) : ∀ (j a n : Nat), a + j ≤ xs.length →
      Fine strict P (fun n' r => ∃ k, r = first + k ∧ a ≤ k ∧ k ≤ a + j ∧ n' ≤ n + (k - a) + 1 ∧ (k = a + j → n' = n + j)) n (findIfLoopA m p j (first + a))
  | 0, a, n, _ => Fine.pure ⟨a, rfl, by omega, by omega, by omega, fun _ => rfl⟩
  | j + 1, a, n, ha => by
    refine fine_read (hx a (by omega)) (fine_call1 hp hs fun b => ?_)
    split
    · exact Fine.pure ⟨a, rfl, by omega, by omega, by omega, fun _ => by omega⟩
    · rw [show first + a + 1 = first + (a + 1) by omega]
      refine Fine.mono (fun _ h => h) ?_ (findIfLoopA_fine hp hx hs j (a + 1) (n + 1) (by omega))
      rintro n' r ⟨k, h1, h2, h3, h4, h5⟩
      exact ⟨k, h1, by omega, by omega, by omega, fun h => by have := h5 (by omega); omega⟩

theorem findIfA_fine {m : Mem α} {p : α → Prog S Q Bool} {s : S} {q : α → Q} {neg : Bool} (hp : Calls1 p s q neg) {xs : List α} {first : Nat}
    (hx : m.Seg first xs) (hs : P s) {a b : Nat} (n : Nat) (hab : strict = true → a ≤ b) (hb : b ≤ xs.length) :
      Fine strict P (fun n' r => ∃ k, r = first + k ∧ a ≤ k ∧ k ≤ b ∧ n' ≤ n + (k - a) + 1 ∧ (k = b → n' = n + (b - a))) n
        (findIfA m p (first + a) (first + b)) := by
  rw [findIfA]
  split
  · rw [show first + b - (first + a) = b - a by omega]
    refine Fine.mono (fun _ h => h) ?_ (findIfLoopA_fine hp hx hs (b - a) a n (by omega))
    rintro n' r ⟨k, h1, h2, h3, h4, h5⟩
    exact ⟨k, h1, by omega, by omega, by omega, fun h => by have := h5 (by omega); omega⟩
  · exact Fine.lift (fun h => by have := hab h; omega) fun r h => by cases h

theorem findLastIfA_fine {m : Mem α} {p : α → Prog S Q Bool} {s : S} {q : α → Q} {neg : Bool} (hp : Calls1 p s q neg) {xs : List α} {first : Nat}
    (hx : m.Seg first xs) (hs : P s) {a b : Nat} (n : Nat) (hab : strict = true → a ≤ b) (hb : b ≤ xs.length) :
      Fine strict P (fun n' r => a ≤ b ∧ ∃ k, r = first + k ∧ ((k = b ∧ n' = n + (b - a)) ∨ (a ≤ k ∧ k < b ∧ n' = n + (b - k)))) n
        (findLastIfA m p (first + a) (first + b)) := by
  rw [findLastIfA]
  split
  · have key : ∀ j n, a + j ≤ b → Fine strict P (fun n' r => a ≤ b ∧ ∃ k, r = first + k ∧ ((k = b ∧ n' = n + j) ∨ (a ≤ k ∧ k < a + j ∧ n' = n + (a + j - k)))) n
        (findLastIfLoopA m p (first + a) (first + b) j) := by
      intro j
      induction j with
      | zero => exact fun n _ => Fine.pure ⟨by omega, b, rfl, .inl ⟨rfl, rfl⟩⟩
      | succ j ih =>
        intro n hj
        refine fine_read (by rw [show first + a + j = first + (a + j) by omega]; exact hx (a + j) (by omega)) (fine_call1 hp hs fun b => ?_)
        split
        · exact Fine.pure ⟨by omega, a + j, by omega, .inr ⟨by omega, by omega, by omega⟩⟩
        · refine Fine.mono (fun _ h => h) ?_ (ih (n + 1) (by omega))
          rintro n' r ⟨h0, k, h1, h2⟩
          exact ⟨h0, k, h1, by omega⟩
    rw [show first + b - (first + a) = b - a by omega]
    refine Fine.mono (fun _ h => h) ?_ (key (b - a) n (by omega))
    rintro n' r ⟨h0, k, h1, h2⟩
    exact ⟨h0, k, h1, by omega⟩
  · exact Fine.lift (fun h => by have := hab h; omega) fun r h => by cases h

theorem advanceLastA_fine {m : Mem α} {P : Mem α → Prop} {xs : List α} {first : Nat} (hx : m.Seg first xs) (hs : P m) {a : Nat} : ∀ (j n : Nat), a + j ≤ xs.length →
      Fine strict P (fun n' r => ∃ k, r = first + k ∧ a ≤ k ∧ k ≤ a + j ∧ (0 < j → k < a + j) ∧ n' = n + (a + j - k)) n (advanceLastA m (first + a) j)
  | 0, n, _ => Fine.pure ⟨a, rfl, by omega, by omega, by omega, by omega⟩
  | j + 1, n, hj => by
    refine fine_read (by rw [show first + a + j = first + (a + j) by omega]; exact hx (a + j) (by omega)) (fine_call1 (calls1_call m id) hs fun b => ?_)
    split
    · exact Fine.pure ⟨a + j, by omega, by omega, by omega, by omega, by omega⟩
    · refine Fine.mono (fun _ h => h) ?_ (advanceLastA_fine hx hs j (n + 1) (by omega))
      rintro n' r ⟨k, h1, h2, h3, h4, h5⟩
      exact ⟨k, h1, by omega, by omega, by omega, by omega⟩

/-! ## partition -/

theorem partitionLoopA_fine {P : Mem α → Prop} {first len : Nat} (hP : ∀ s t : Mem α, P s → Shuffled first len s t → P t) :
    ∀ (f : Nat) {m : Mem α} {xs : List α} {i j : Nat} (n : Nat), m.Seg first xs → xs.length = len → P m → i ≤ j → j < f + i → (i < j → j < len) → j ≤ len →
      Fine true P (fun n' r => Shuffled first len m r.1 ∧ ∃ k, r.2 = first + k ∧ i ≤ k ∧ k ≤ j ∧ n' ≤ n + 2 * (j - i)) n
        (partitionLoopA f m (first + i) (first + j))
  | 0, m, xs, i, j, n, _, _, _, hij, hf, _, _ => by omega
  | f + 1, m, xs, i, j, n, hx, hl, hm, hij, hf, hj, hj' => by
    rw [partitionLoopA]
    split
    · exact Fine.pure ⟨.refl .., i, rfl, by omega, by omega, by omega⟩
    · obtain ⟨m', ys, e, sh, hy, hyl⟩ := Shuffled.swap hx (i := i) (j := j) (by omega) (by omega)
      rw [hl] at sh
      have hm' := hP _ _ hm sh
      refine fine_read e (Fine.seq (Fine.mono (fun _ h => h) ?_ (findIfA_fine (calls1_not (calls1_call m' id)) hy hm' (a := i) (b := j) n (fun _ => hij) (by omega))))
      rintro n1 r ⟨k, rfl, h1, h2, h3, h4⟩
      split
      · exact Fine.pure ⟨sh, k, rfl, by omega, by omega, by have := h4 (by omega); omega⟩
      · rw [show first + j - (first + k) = j - k by omega]
        refine Fine.seq (Fine.mono (fun _ h => h) ?_ (advanceLastA_fine hy hm' (a := k) (j - k) n1 (by omega)))
        rintro n2 r ⟨k', rfl, h5, h6, h7, h8⟩
        have := h7 (by omega)
        refine Fine.mono (fun _ h => h) ?_ (partitionLoopA_fine hP f (i := k) (j := k') n2 hy (by omega) hm' h5 (by omega) (by omega) (by omega))
        rintro n3 r ⟨sh2, k2, e2, h9, h10, h11⟩
        exact ⟨sh.trans sh2, k2, e2, by omega, by omega, by omega⟩

theorem partitionForwardA_fine {P : Mem α → Prop} {first len : Nat} (hP : ∀ s t : Mem α, P s → Shuffled first len s t → P t) :
    ∀ (j : Nat) {m : Mem α} {xs : List α} {i a : Nat} (n : Nat), m.Seg first xs → xs.length = len → P m → i < a → a + j = len →
      Fine true P (fun n' r => Shuffled first len m r.1 ∧ ∃ k, r.2 = first + k ∧ i ≤ k ∧ k ≤ i + j ∧ n' = n + j) n
        (partitionForwardA j m (first + i) (first + a))
  | 0, m, xs, i, a, n, _, _, _, _, _ => Fine.pure ⟨.refl .., i, rfl, by omega, by omega, rfl⟩
  | j + 1, m, xs, i, a, n, hx, hl, hm, hia, ha => by
    refine fine_read (hx a (by omega)) (fine_call1 (calls1_call m id) hm fun b => ?_)
    split
    · obtain ⟨m', ys, e, sh, hy, hyl⟩ := Shuffled.swap hx (i := a) (j := i) (by omega) (by omega)
      rw [hl] at sh
      refine fine_read e ?_
      rw [show first + i + 1 = first + (i + 1) by omega, show first + a + 1 = first + (a + 1) by omega]
      refine Fine.mono (fun _ h => h) ?_ (partitionForwardA_fine hP j (n + 1) hy (by omega) (hP _ _ hm sh) (i := i + 1) (a := a + 1) (by omega) (by omega))
      rintro n' r ⟨sh2, k, h1, h2, h3, h4⟩
      exact ⟨sh.trans sh2, k, h1, by omega, by omega, by omega⟩
    · rw [show first + a + 1 = first + (a + 1) by omega]
      refine Fine.mono (fun _ h => h) ?_ (partitionForwardA_fine hP j (n + 1) hx hl hm (i := i) (a := a + 1) (by omega) (by omega))
      rintro n' r ⟨sh2, k, h1, h2, h3, h4⟩
      exact ⟨sh2, k, h1, by omega, by omega, by omega⟩

theorem partitionA_fine {m : Mem α} {xs : List α} {first : Nat} (hx : m.Seg first xs) (bidir : Bool) :
    Fine true (Shuffled first xs.length m) (fun n' r => Shuffled first xs.length m r.1 ∧ first ≤ r.2 ∧ r.2 ≤ first + xs.length ∧
      n' ≤ (if bidir then 2 * xs.length else xs.length)) 0 (partitionA bidir m first (first + xs.length)) := by
  have hP : ∀ s t : Mem α, Shuffled first xs.length m s → Shuffled first xs.length s t → Shuffled first xs.length m t := fun _ _ => Shuffled.trans
  have hm := Shuffled.refl first xs.length m
  rw [partitionA]
  refine Fine.seq (Fine.mono (fun _ h => h) ?_ (findIfA_fine (calls1_not (calls1_call m id)) hx hm (a := 0) (b := xs.length) 0 (fun _ => by omega) (by omega)))
  rintro n1 r ⟨k, rfl, h1, h2, h3, h4⟩
  split
  · rw [show first + xs.length - (first + k) = xs.length - k by omega]
    refine Fine.seq (Fine.mono (fun _ h => h) ?_ (advanceLastA_fine hx hm (a := k) (xs.length - k) n1 (by omega)))
    rintro n2 r ⟨k', rfl, h5, h6, h7, h8⟩
    rw [show first + k' - (first + k) = k' - k by omega]
    refine Fine.mono (fun _ h => h) ?_ (partitionLoopA_fine hP (k' - k + 1) n2 hx rfl hm h5 (by omega) (by omega) (by omega))
    rintro n3 r ⟨sh2, k2, e2, h9, h10, h11⟩
    refine ⟨sh2, by omega, by omega, ?_⟩
    by_cases hk : k = xs.length
    · have := h4 hk; omega
    · omega
  · split
    · exact Fine.pure ⟨hm, by omega, by omega, by have := h4 (by omega); omega⟩
    · rw [show first + xs.length - (first + k) - 1 = xs.length - k - 1 by omega, show first + k + 1 = first + (k + 1) by omega]
      refine Fine.mono (fun _ h => h) ?_ (partitionForwardA_fine hP (xs.length - k - 1) n1 hx rfl hm (i := k) (a := k + 1) (by omega) (by omega))
      rintro n3 r ⟨sh2, k2, e2, h9, h10, h11⟩
      exact ⟨sh2, by omega, by omega, by omega⟩

/-- C78, `partition`: with every function object, also one that contradicts itself, the elements are in the range, in some order, whenever the
function object is called (so also if it throws) and in the end, when the result is a position of the range. Over ranges that can be walked
backwards there are at most `2 n` calls, over others at most `n`. -/
theorem C78_partition {m : Mem α} {xs : List α} {first : Nat} (hx : m.Seg first xs) (bidir : Bool) (f : τ → α → Option (Bool × τ)) (t : τ) :
    Outcome true (Shuffled first xs.length m) (fun calls r => Shuffled first xs.length m r.1 ∧ first ≤ r.2 ∧ r.2 ≤ first + xs.length ∧
      calls ≤ (if bidir then 2 * xs.length else xs.length)) (Ask.exec f t (partitionA bidir m first (first + xs.length))) := by
  simpa using (partitionA_fine hx bidir).exec (f := f) (t := t)

/-! ## iterator_partition -/

theorem calls1_ask2 (m : Mem α) (v : α) : Calls1 (fun x => ask2 m x v) m (fun x => (x, v)) false := calls1_call m fun x => (x, v)

theorem iteratorPartitionLoopA_fine {P : Mem α → Prop} {first len : Nat} (hP : ∀ s t : Mem α, P s → Shuffled first len s t → P t) :
    ∀ (f : Nat) {m : Mem α} {xs : List α} {i j mid : Nat} (n : Nat), m.Seg first xs → xs.length = len → P m → i ≤ j → j ≤ len → mid < len →
      Fine false P (fun n' r => Shuffled first len m r.1 ∧ ∃ k, r.2 = first + k ∧ i ≤ k ∧ k ≤ j ∧ n' ≤ n + (j - i) + 1) n
        (iteratorPartitionLoopA f m (first + i) (first + mid) (first + j))
  | 0, m, xs, i, j, mid, n, _, _, _, _, _, _ => rfl
  | f + 1, m, xs, i, j, mid, n, hx, hl, hm, hij, hj, hmid => by
    refine fine_read (hx mid (by omega)) (Fine.seq (Fine.mono (fun _ h => h) ?_ (findIfA_fine (calls1_not (calls1_ask2 m _)) hx hm (a := i) (b := mid) n
      (fun h => by cases h) (by omega))))
    rintro n1 r ⟨k, rfl, h1, h2, h3, h4⟩
    split
    · exact Fine.pure ⟨.refl .., k, rfl, by omega, by omega, by omega⟩
    · rw [show first + k + 1 = first + (k + 1) by omega]
      refine Fine.seq (Fine.mono (fun _ h => h) ?_ (findLastIfA_fine (calls1_ask2 m _) hx hm (a := k + 1) (b := j) n1 (fun h => by cases h) (by omega)))
      rintro n2 r ⟨h5, l, rfl, h6⟩
      split
      · exact Fine.pure ⟨.refl .., k, rfl, by omega, by omega, by omega⟩
      · obtain ⟨m', ys, e, sh, hy, hyl⟩ := Shuffled.swap hx (i := k) (j := l) (by omega) (by omega)
        rw [hl] at sh
        refine fine_read e ?_
        rw [show (if first + k = first + mid then first + l else first + mid) = first + (if k = mid then l else mid) by split <;> split <;> omega]
        refine Fine.mono (fun _ h => h) ?_ (iteratorPartitionLoopA_fine hP f n2 hy (by omega) (hP _ _ hm sh) (i := k + 1) (j := l) (by omega) (by omega)
          (by split <;> omega))
        rintro n3 r ⟨sh2, k2, e2, h9, h10, h11⟩
        exact ⟨sh.trans sh2, k2, e2, by omega, by omega, by omega⟩

theorem iteratorPartitionA_fine {P : Mem α → Prop} {first : Nat} {m : Mem α} {xs : List α} (hP : ∀ s t : Mem α, P s → Shuffled first xs.length s t → P t)
    (hx : m.Seg first xs) (hm : P m) {mid : Nat} (hmid : mid < xs.length ∨ xs = []) (n : Nat) :
    Fine false P (fun n' r => Shuffled first xs.length m r.1 ∧ first ≤ r.2 ∧ r.2 ≤ first + xs.length ∧ n' ≤ n + xs.length + 1) n
        (iteratorPartitionA m first (first + mid) (first + xs.length)) := by
  rw [iteratorPartitionA]
  split
  · rfl
  · split
    · split
      · exact Fine.pure ⟨.refl .., by omega, by omega, by omega⟩
      · rfl
    · rename_i h
      have : mid < xs.length := hmid.resolve_right (by rintro rfl; simp at h)
      refine Fine.mono (fun _ h => h) ?_ (iteratorPartitionLoopA_fine hP (first + xs.length - first + 1) n hx rfl hm (i := 0) (j := xs.length) (by omega) (by omega) this)
      rintro n3 r ⟨sh2, k2, e2, h9, h10, h11⟩
      exact ⟨sh2, by omega, by omega, by omega⟩

/-! ## A fixed number of elements -/

/-- What a leaf does whatever was answered before: it moves the elements to the cells `out .. out + n - 1` in some order, or (if not
`strict`) something undefined happens. -/
def movesLeaf (strict : Bool) (n k out : Nat) (ps : List Prim) : Bool :=
  ps.all (Prim.below k) &&
  match runPrims id (symbolic n) ps with
  | none => !strict
  | some m =>
    ((List.range k).all fun i => (m i).isSome == (decide (out ≤ i) && decide (i < out + n))) && decide ((resultOf m out n).Perm (List.range n))

/-- The same for all leaves, and the comparisons are of elements. -/
def Tree.moves (strict : Bool) (n k out : Nat) : Tree → Bool
  | .done ps => movesLeaf strict n k out ps
  | .ask i j yes no => decide (i < n) && decide (j < n) && yes.moves strict n k out && no.moves strict n k out

theorem Prim.sim_none {ad : Nat → Nat} {a : Nat → α} {k : Nat} {p : Prim} (hb : p.below k = true) {m : Mem Nat} {M : Mem α} (hs : Sim ad a k m M)
    (hr : p.run id m = none) : p.run ad M = none := by
  cases p with
  | reloc d s =>
    simp only [Prim.below, Bool.and_eq_true, decide_eq_true_eq] at hb
    simp only [Prim.run, id, Mem.relocateAt] at hr ⊢
    rw [hs s hb.2, hs d hb.1]
    cases h1 : m s with
    | none => rfl
    | some v =>
      cases h2 : m d with
      | none => rw [h1, h2] at hr; cases hr
      | some w => rfl
  | swap d s =>
    simp only [Prim.below, Bool.and_eq_true, decide_eq_true_eq] at hb
    simp only [Prim.run, id, Mem.swapAt] at hr ⊢
    rw [hs s hb.2, hs d hb.1]
    cases h1 : m d with
    | none => rfl
    | some v =>
      cases h2 : m s with
      | none => rfl
      | some w => rw [h1, h2] at hr; cases hr

theorem runPrims_sim_none {ad : Nat → Nat} {a : Nat → α} {k : Nat} (hinj : ∀ i j, i < k → j < k → ad i = ad j → i = j) :
    ∀ {ps : List Prim} (_ : ps.all (Prim.below k) = true) {m : Mem Nat} {M : Mem α} (_ : Sim ad a k m M) (_ : runPrims id m ps = none), runPrims ad M ps = none := by
  intro ps
  induction ps with
  | nil => intro _ m M _ hr; cases hr
  | cons p ps ih =>
    intro hb m M hs hr
    simp only [List.all_cons, Bool.and_eq_true] at hb
    rw [runPrims] at hr ⊢
    cases h1 : p.run id m with
    | none => rw [Prim.sim_none hb.1 hs h1]; rfl
    | some m1 =>
      rw [h1] at hr
      obtain ⟨M1, e1, s1, -⟩ := Prim.sim hinj hb.1 hs h1
      rw [e1]
      exact ih hb.2 s1 hr

/-- The elements are in the cells named from `out` on, in some order, the other named cells are raw, everything else is as before. -/
structure MovedInto (ad : Nat → Nat) (a : Nat → α) (n k out : Nat) (M M' : Mem α) : Prop where
  result : ∃ ys : List α, ys.length = n ∧ (∀ i (h : i < ys.length), M' (ad (out + i)) = some ys[i]) ∧ ys.Perm ((List.range n).map a)
  raw : ∀ i, i < k → ¬ (out ≤ i ∧ i < out + n) → M' (ad i) = none
  frame : Mem.SameOff M M' (fun x => ∃ i, i < k ∧ x = ad i)

theorem movesLeaf_sound {n k out : Nat} (hout : out + n ≤ k) {ad : Nat → Nat} {a : Nat → α} {M : Mem α} (hp : Placed ad a n k M) {ps : List Prim}
    (hc : movesLeaf strict n k out ps = true) :
    (strict = true → runPrims ad M ps ≠ none) ∧ ∀ M', runPrims ad M ps = some M' → MovedInto ad a n k out M M' := by
  rw [movesLeaf, Bool.and_eq_true] at hc
  obtain ⟨hb, hc⟩ := hc
  have hsim : Sim ad a k (symbolic n) M := by
    intro i hi
    by_cases hin : i < n
    · rw [hp.live i hin]; simp [symbolic, hin]
    · rw [hp.raw i (by omega) hi]; simp [symbolic, hin]
  cases hr : runPrims id (symbolic n) ps with
  | none =>
    rw [hr] at hc
    rw [runPrims_sim_none hp.inj hb hsim hr]
    refine ⟨fun h => ?_, fun M' h => by cases h⟩
    rw [h] at hc; cases hc
  | some m' =>
    rw [hr] at hc
    simp only [Bool.and_eq_true, decide_eq_true_eq] at hc
    obtain ⟨hlive, hperm⟩ := hc
    obtain ⟨M', e, s, f⟩ := runPrims_sim hp.inj hb hsim hr
    rw [e]
    refine ⟨fun _ h => (by cases h), fun M'' h => ?_⟩
    injection h with h
    subst h
    refine ⟨⟨(resultOf m' out n).map a, by simp [resultOf], ?_, hperm.map a⟩, ?_, f⟩
    · intro i hi
      simp only [resultOf, List.length_map, List.length_range] at hi
      have := s (out + i) (by omega)
      rw [this]
      have hl := List.all_eq_true.1 hlive (out + i) (by simp; omega)
      cases hm : m' (out + i) with
      | none =>
        rw [hm] at hl
        simp at hl
        omega
      | some v => simp [resultOf, hm]
    · intro i hi hno
      rw [s i hi]
      have hl := List.all_eq_true.1 hlive i (by simpa using hi)
      cases hm : m' i with
      | none => rfl
      | some v =>
        rw [hm] at hl
        simp at hl
        omega

/-- Nothing has been moved when the comparison is called. -/
theorem Tree.runA_fine {n k out : Nat} (hout : out + n ≤ k) {ad : Nat → Nat} {a : Nat → α} {M : Mem α} (hp : Placed ad a n k M) : ∀ {t : Tree} (c : Nat)
    (_ : t.moves strict n k out = true), Fine strict (· = M) (fun c' M' => MovedInto ad a n k out M M' ∧ c' ≤ c + t.depth) c (t.runA ad M) := by
  intro t
  induction t with
  | done ps =>
    intro c hc
    obtain ⟨h1, h2⟩ := movesLeaf_sound hout hp hc
    exact Fine.lift h1 fun M' e => ⟨h2 M' e, by simp [Tree.depth]⟩
  | ask i j yes no ihy ihn =>
    intro c hc
    simp only [Tree.moves, Bool.and_eq_true, decide_eq_true_eq] at hc
    obtain ⟨⟨⟨hi, hj⟩, hy⟩, hn⟩ := hc
    refine fine_read (hp.live i hi) (fine_read (hp.live j hj) (Fine.seq (Fine.call rfl fun b => ?_)))
    split
    · refine Fine.mono (fun _ h => h) (fun c' M' h => ⟨h.1, ?_⟩) (ihy (c + 1) hy)
      have := h.2; simp only [Tree.depth]; omega
    · refine Fine.mono (fun _ h => h) (fun c' M' h => ⟨h.1, ?_⟩) (ihn (c + 1) hn)
      have := h.2; simp only [Tree.depth]; omega

/-- The routines in place move elements only among their places, whatever the comparison says. -/
theorem inPlaceTree_moves {n : Nat} {t : Tree} (ht : inPlaceTree n = some t) : t.moves true n (n + 1) 0 = true := by
  match n, ht with
  | 1, ht => cases ht; decide +kernel
  | 2, ht => cases ht; decide +kernel
  | 3, ht => cases ht; decide +kernel
  | 4, ht => cases ht; decide +kernel
  | 5, ht => cases ht; decide +kernel

/-- The relocating routine for three cheaply sortable elements needs a comparison that does not contradict itself. -/
def relocateRobust (cheap : Bool) (n : Nat) : Bool := !(cheap && n == 3)

theorem relocateTree_moves {cheap : Bool} {n : Nat} {t : Tree} (ht : relocateTree cheap n = some t) :
    t.moves (relocateRobust cheap n) n (n + n) n = true := by
  match n, cheap, ht with
  | 1, true, ht => cases ht; decide +kernel
  | 1, false, ht => cases ht; decide +kernel
  | 2, true, ht => cases ht; decide +kernel
  | 2, false, ht => cases ht; decide +kernel
  | 3, true, ht => cases ht; decide +kernel
  | 3, false, ht => cases ht; decide +kernel
  | 4, true, ht => cases ht; decide +kernel
  | 4, false, ht => cases ht; decide +kernel

theorem inPlaceAt_positions {it n temp : Nat} : Positions it temp n n (inPlaceAt it n temp) := by
  refine ⟨fun i hi => ?_, fun i j hi hj he => ?_, ?_⟩
  · rw [inPlaceAt, if_pos hi]; omega
  · rw [inPlaceAt, if_pos hi, inPlaceAt, if_pos hj] at he; omega
  · rw [inPlaceAt, if_neg (by omega)]

theorem MovedInto.shuffled {m m' : Mem α} {first temp n : Nat} {xs : List α} {ad : Nat → Nat} (hp : Positions first temp n xs.length ad) (hs : m.Seg first xs)
    (ht : m temp = none) {d : α} (h : MovedInto ad (fun i => xs.getD (ad i - first) d) n (n + 1) 0 m m') : Shuffled first xs.length m m' := by
  obtain ⟨ys, hl, hy, hperm⟩ := h.result
  obtain ⟨zs, h1, h2, h3⟩ := hp.rearranges (m' := m') hs hl (fun i hi => by simpa using hy i hi) hperm (fun x hx => by
    by_cases hxn : x = temp
    · have := h.raw n (by omega) (by omega)
      rw [hp.temp] at this
      rw [hxn, this, ht]
    · refine h.frame x fun ⟨i, hi, he⟩ => ?_
      by_cases hin : i = n
      · rw [hin, hp.temp] at he; exact hxn he
      · exact hx ⟨i, by omega, he⟩)
  exact .of_seg hs rfl h1 h2 h3

/-- The numbers of comparisons of the routines for one to five elements. -/
def exactlyMost : Nat → Nat
  | 2 => 1
  | 3 => 3
  | 4 => 5
  | 5 => 7
  | _ => 0

theorem inPlaceTree_some {n : Nat} (hn : 1 ≤ n) (hn5 : n ≤ 5) : ∃ t, inPlaceTree n = some t ∧ t.depth = exactlyMost n := by
  match n, hn, hn5 with
  | 1, _, _ => exact ⟨_, rfl, rfl⟩
  | 2, _, _ => exact ⟨_, rfl, rfl⟩
  | 3, _, _ => exact ⟨_, rfl, rfl⟩
  | 4, _, _ => exact ⟨_, rfl, rfl⟩
  | 5, _, _ => exact ⟨_, rfl, rfl⟩

theorem relocateTree_some (cheap : Bool) {n : Nat} (hn : 1 ≤ n) (hn4 : n ≤ 4) : ∃ t, relocateTree cheap n = some t ∧ t.depth = exactlyMost n := by
  match n, cheap, hn, hn4 with
  | 1, _, _, _ => exact ⟨_, rfl, rfl⟩
  | 2, _, _, _ => exact ⟨_, rfl, rfl⟩
  | 3, true, _, _ => exact ⟨_, rfl, rfl⟩
  | 3, false, _, _ => exact ⟨_, rfl, rfl⟩
  | 4, true, _, _ => exact ⟨_, rfl, rfl⟩
  | 4, false, _, _ => exact ⟨_, rfl, rfl⟩

theorem sortExactlyInPlaceA_fine {m : Mem α} {xs : List α} {it temp : Nat} (hs : m.Seg it xs) (ht : m temp = none) (hn : 1 ≤ xs.length) (hn5 : xs.length ≤ 5)
    (c : Nat) : Fine true (· = m) (fun c' m' => Shuffled it xs.length m m' ∧ c' ≤ c + exactlyMost xs.length) c (sortExactlyInPlaceA m it xs.length temp) := by
  obtain ⟨t, e, hd⟩ := inPlaceTree_some hn hn5
  rw [sortExactlyInPlaceA, e]
  have hp : Positions it temp xs.length xs.length (inPlaceAt it xs.length temp) := inPlaceAt_positions
  refine Fine.mono (fun _ h => h) (fun c' m' h => ⟨h.1.shuffled hp hs ht, hd ▸ h.2⟩)
    (Tree.runA_fine (out := 0) (by omega) (hp.placed hs ht (xs[0]'(by omega))) c (inPlaceTree_moves e))

theorem relocateFrom_placed {m : Mem α} {xs : List α} {it out : Nat} (hs : m.Seg it xs) (hr : m.Raw out xs.length) (d : α) :
    Placed (relocateFrom it xs.length out) (fun i => xs.getD i d) xs.length (xs.length + xs.length) m := by
  have hout : ∀ i j, i < xs.length → j < xs.length → it + i ≠ out + j := by
    intro i j hi hj he
    have := hs i hi
    rw [he, hr j hj] at this; cases this
  refine ⟨?_, ?_, ?_, by omega⟩
  · intro i j hi hj he
    simp only [relocateFrom] at he
    split at he <;> split at he
    · omega
    · exact absurd he (hout i _ (by assumption) (by omega))
    · exact absurd he.symm (hout j _ (by assumption) (by omega))
    · omega
  · intro i hi
    simp only [relocateFrom, hi, if_true]
    rw [hs i hi, List.getD_eq_getElem?_getD, List.getElem?_eq_getElem hi]; rfl
  · intro i hi hi2
    simp only [relocateFrom, show ¬ i < xs.length by omega, if_false]
    exact hr _ (by omega)

/-- The elements were moved to `out`, in some order. -/
structure Relocated (it out : Nat) (xs : List α) (m m' : Mem α) : Prop where
  result : ∃ ys : List α, ys.Perm xs ∧ m'.Seg out ys
  raw : m'.Raw it xs.length
  rest : m.SameOff m' (fun x => InRange it xs.length x ∨ InRange out xs.length x)

theorem sortExactlyRelocateA_fine (cheap : Bool) {m : Mem α} {xs : List α} {it out : Nat} (hs : m.Seg it xs) (hr : m.Raw out xs.length) (hn : 1 ≤ xs.length)
    (hn4 : xs.length ≤ 4) (c : Nat) : Fine (relocateRobust cheap xs.length) (· = m) (fun c' m' => Relocated it out xs m m' ∧ c' ≤ c + exactlyMost xs.length) c
      (sortExactlyRelocateA cheap m it xs.length out) := by
  obtain ⟨t, e, hd⟩ := relocateTree_some cheap hn hn4
  rw [sortExactlyRelocateA, e]
  refine Fine.mono (fun _ h => h) (fun c' m' h => ⟨?_, hd ▸ h.2⟩)
    (Tree.runA_fine (Nat.le_refl _) (relocateFrom_placed hs hr (xs[0]'(by omega))) c (relocateTree_moves e))
  obtain ⟨⟨ys, hl, hy, hperm⟩, raw, fr⟩ := h.1
  rw [map_getD_range] at hperm
  refine ⟨⟨ys, hperm, fun i hi => ?_⟩, fun i hi => ?_, fun x hx => fr x fun ⟨i, hi, he⟩ => hx ?_⟩
  · have := hy i hi
    rwa [relocateFrom, if_neg (by omega), Nat.add_sub_cancel_left] at this
  · have := raw i (by omega) (by omega)
    rwa [relocateFrom, if_pos hi] at this
  · simp only [relocateFrom] at he
    split at he <;> simp only [InRange] <;> omega

theorem sortExactlyA_fine (cheap : Bool) {m : Mem α} {xs : List α} {it temp : Nat} (hs : m.Seg it xs) (hr : m.Raw temp xs.length) (hn : 1 ≤ xs.length)
    (hn5 : xs.length ≤ 5) (c : Nat) : Fine (relocateRobust cheap xs.length) (· = m) (fun c' m' => Shuffled it xs.length m m' ∧ c' ≤ c + exactlyMost xs.length) c
      (sortExactlyA cheap m it xs.length temp) := by
  rw [sortExactlyA]
  split
  · rename_i hc
    refine Fine.seq (Fine.mono (fun _ h => h) ?_ (sortExactlyRelocateA_fine cheap hs hr hn hc.2 c))
    rintro c' m1 ⟨⟨⟨ys, hp, s1⟩, r1, f1⟩, hc'⟩
    have hlen := hp.length_eq
    have hdis : temp + ys.length ≤ it ∨ it + ys.length ≤ temp := by
      by_contra hcon
      by_cases hlt : it ≤ temp
      · have a := hs (temp - it) (by omega)
        rw [show it + (temp - it) = temp + 0 by omega, hr 0 (by omega)] at a; cases a
      · have a := hs 0 (by omega)
        have b := hr (it - temp) (by omega)
        rw [show temp + (it - temp) = it + 0 by omega, a] at b; cases b
    obtain ⟨m2, e2, s2, r2, f2⟩ := Mem.relocateRange_spec s1 (dst := it) (by rwa [hlen]) hdis
    rw [hlen] at e2
    refine Fine.lift' e2 ⟨.of_seg hs rfl hp s2 fun x hx => ?_, hc'⟩
    simp only [InRange] at hx
    by_cases hxt : temp ≤ x ∧ x < temp + xs.length
    · have := r2 (x - temp) (by omega)
      rw [show temp + (x - temp) = x by omega] at this
      have b := hr (x - temp) (by omega)
      rw [show temp + (x - temp) = x by omega] at b
      rw [this, b]
    · rw [f2 x (by omega), f1 x (by simp only [InRange]; omega)]
  · exact Fine.weaken (sortExactlyInPlaceA_fine hs (by simpa using hr 0 (by omega)) hn hn5 c)

/-- C78, `sort_exactly_n_in_place`: nothing has been moved yet whenever the comparison is called, so if it throws, everything is as before. A
comparison that contradicts itself still leaves the elements in the range. -/
theorem C78_sort_exactly_in_place {m : Mem α} {xs : List α} {it temp : Nat} (hs : m.Seg it xs) (ht : m temp = none) (hn : 1 ≤ xs.length) (hn5 : xs.length ≤ 5)
    (f : τ → α × α → Option (Bool × τ)) (t : τ) :
    Outcome true (· = m) (fun calls m' => Shuffled it xs.length m m' ∧ calls ≤ exactlyMost xs.length) (Ask.exec f t (sortExactlyInPlaceA m it xs.length temp)) := by
  simpa using (sortExactlyInPlaceA_fine hs ht hn hn5 0).exec (f := f) (t := t)

/-- C78, `sort_exactly_n_relocate`: the same. For three cheaply sortable elements a comparison that contradicts itself has undefined
behaviour. -/
theorem C78_sort_exactly_relocate (cheap : Bool) {m : Mem α} {xs : List α} {it out : Nat} (hs : m.Seg it xs) (hr : m.Raw out xs.length) (hn : 1 ≤ xs.length)
    (hn4 : xs.length ≤ 4) (f : τ → α × α → Option (Bool × τ)) (t : τ) :
    Outcome (!(cheap && xs.length == 3)) (· = m) (fun calls m' => Relocated it out xs m m' ∧ calls ≤ exactlyMost xs.length)
      (Ask.exec f t (sortExactlyRelocateA cheap m it xs.length out)) := by
  simpa [relocateRobust] using (sortExactlyRelocateA_fine cheap hs hr hn hn4 0).exec (f := f) (t := t)

/-- C78, `sort_exactly_n`. -/
theorem C78_sort_exactly (cheap : Bool) {m : Mem α} {xs : List α} {it temp : Nat} (hs : m.Seg it xs) (hr : m.Raw temp xs.length) (hn : 1 ≤ xs.length)
    (hn5 : xs.length ≤ 5) (f : τ → α × α → Option (Bool × τ)) (t : τ) :
    Outcome (!(cheap && xs.length == 3)) (· = m) (fun calls m' => Shuffled it xs.length m m' ∧ calls ≤ exactlyMost xs.length)
      (Ask.exec f t (sortExactlyA cheap m it xs.length temp)) := by
  simpa [relocateRobust] using (sortExactlyA_fine cheap hs hr hn hn5 0).exec (f := f) (t := t)

/-! ## Introspective sort -/

theorem isSortedLoopA_fine {m s : Mem α} {P : Mem α → Prop} (hs : P s) : ∀ {xs : List α} {x : α} {first : Nat} (c : Nat), m.Seg first (x :: xs) →
    Fine strict P (fun c' _ => c' ≤ c + xs.length) c (isSortedLoopA m (ask2 s) xs.length first (first + 1))
  | [], x, first, c, _ => Fine.pure (by simp)
  | y :: xs, x, first, c, hx => by
    obtain ⟨h0, h1⟩ := Mem.seg_cons.1 hx
    obtain ⟨h2, -⟩ := Mem.seg_cons.1 h1
    rw [List.length_cons, isSortedLoopA]
    refine fine_read h2 (fine_read h0 (Fine.seq (Fine.call hs fun b => ?_)))
    split
    · exact Fine.pure (by omega)
    · refine Fine.mono (fun _ h => h) (fun c' _ h => ?_) (isSortedLoopA_fine hs (c + 1) h1)
      omega

theorem isSortedA_fine {m : Mem α} {P : Mem α → Prop} (hs : P m) {xs : List α} {first : Nat} (c : Nat) (hx : m.Seg first xs) :
    Fine strict P (fun c' _ => c' ≤ c + (xs.length - 1)) c (isSortedA m (ask2 m) first xs.length) := by
  rw [isSortedA]
  cases xs with
  | nil => exact Fine.pure (by simp)
  | cons x xs =>
    rw [if_neg (by simp)]
    exact isSortedLoopA_fine hs c hx

theorem doSortA_fine (cheap : Bool) {m : Mem α} {xs : List α} {it temp : Nat} (hs : m.Seg it xs) (hr : m.Raw temp xs.length) (hn : 1 ≤ xs.length)
    (hn5 : xs.length ≤ 5) (c : Nat) : Fine false (Shuffled it xs.length m) (fun c' m' => Shuffled it xs.length m m' ∧ c' ≤ c + 3 * xs.length) c
      (doSortA cheap m it xs.length temp) := by
  refine Fine.seq ?_
  have h : ∀ {b : Bool}, ∀ {a : Prog (Mem α) (α × α) (Mem α)} {post : Nat → Mem α → Prop}, Fine b (· = m) post c a →
      Fine false (Shuffled it xs.length m) post c a := by
    intro b a post H
    cases b with
    | false => exact Fine.mono (fun s e => e ▸ Shuffled.refl ..) (fun _ _ h => h) H
    | true => exact Fine.weaken (Fine.mono (fun s e => e ▸ Shuffled.refl ..) (fun _ _ h => h) H)
  refine Fine.mono (fun _ h => h) ?_ (h (sortExactlyA_fine cheap hs hr hn hn5 c))
  rintro c' m' ⟨sh, hc⟩
  obtain ⟨ys, p, sy⟩ := sh.perm xs rfl hs
  rw [← p.length_eq] at sh hc hn hn5 ⊢
  refine Fine.seq (Fine.mono (fun _ h => h) ?_ (isSortedA_fine (P := Shuffled it ys.length m) sh c' sy))
  intro c2 b hc2
  split
  · refine Fine.pure ⟨sh, ?_⟩
    have : exactlyMost ys.length + (ys.length - 1) ≤ 3 * ys.length := by
      generalize ys.length = k at hn hn5
      match k, hn, hn5 with
      | 1, _, _ => decide
      | 2, _, _ => decide
      | 3, _, _ => decide
      | 4, _, _ => decide
      | 5, _, _ => decide
    omega
  · rfl

theorem smallSortA_fine (cheap : Bool) {m : Mem α} {xs : List α} {first temp : Nat} {large : Mem α → Nat → Nat → Prog (Mem α) (α × α) (Mem α)} (hs : m.Seg first xs)
    (hr : m.Raw temp 5) (c bound : Nat) (hb : 3 * xs.length ≤ bound)
    (hl : 5 < xs.length → Fine false (Shuffled first xs.length m) (fun c' m' => Shuffled first xs.length m m' ∧ c' ≤ c + bound) c (large m first xs.length)) :
    Fine false (Shuffled first xs.length m) (fun c' m' => Shuffled first xs.length m m' ∧ c' ≤ c + bound) c (smallSortA cheap temp large m first xs.length) := by
  rw [smallSortA]
  split
  · exact Fine.pure ⟨.refl .., by omega⟩
  · split
    · refine Fine.mono (fun _ h => h) (fun c' m' h => ⟨h.1, ?_⟩) (doSortA_fine cheap hs (fun i hi => hr i (by omega)) (by omega) (by omega) c)
      have := h.2; omega
    · exact hl (by omega)

theorem sortMediansA_fine {m : Mem α} {xs : List α} {first temp : Nat} (hs : m.Seg first xs) (ht : m temp = none) (hn : 5 < xs.length) (c : Nat) :
    Fine false (· = m) (fun c' m' => Shuffled first xs.length m m' ∧ c' ≤ c + (if 1000 ≤ xs.length then 7 else 3)) c (sortMediansA temp m first xs.length) := by
  rw [sortMediansA]
  split
  · rename_i hbig
    have hp := median5_positions (first := first) (temp := temp) hbig
    exact Fine.weaken (Fine.mono (fun _ h => h) (fun c' m' h => ⟨h.1.shuffled hp hs ht, h.2⟩)
      (Tree.runA_fine (out := 0) (by omega) (hp.placed hs ht (xs[0]'(by omega))) c (inPlaceTree_moves (n := 5) rfl)))
  · have hp := median3_positions (first := first) (temp := temp) hn
    exact Fine.weaken (Fine.mono (fun _ h => h) (fun c' m' h => ⟨h.1.shuffled hp hs ht, h.2⟩)
      (Tree.runA_fine (out := 0) (by omega) (hp.placed hs ht (xs[0]'(by omega))) c (inPlaceTree_moves (n := 3) rfl)))

/-- What is assumed of `std::make_heap` followed by `std::sort_heap`: with every comparison they only rearrange the elements, an exception
leaves the elements in the range, and for `n ≤ most` elements they make at most `n * per` comparisons. -/
def HeapFine (heap : Mem α → Nat → Nat → Prog (Mem α) (α × α) (Mem α)) (most per : Nat) : Prop :=
  ∀ (m : Mem α) (first : Nat) (xs : List α) (c : Nat), m.Seg first xs → xs.length ≤ most →
    Fine false (Shuffled first xs.length m) (fun c' m' => Shuffled first xs.length m m' ∧ c' ≤ c + xs.length * per) c (heap m first xs.length)

theorem introsortA_fine (cheap : Bool) {heap : Mem α → Nat → Nat → Prog (Mem α) (α × α) (Mem α)} {most per : Nat} (hheap : HeapFine heap most per) {temp : Nat} :
    ∀ (depth : Nat) {m : Mem α} {first : Nat} {xs : List α} (c : Nat), m.Seg first xs → m.Raw temp 5 → xs.length ≤ most →
      Fine false (Shuffled first xs.length m) (fun c' m' => Shuffled first xs.length m m' ∧ c' ≤ c + xs.length * (3 * (depth + 1) + per)) c
        (introsortA cheap temp heap depth m first xs.length)
  | 0, m, first, xs, c, hs, hr, hm => by
    refine smallSortA_fine cheap hs hr c _ (by rw [Nat.mul_add]; omega) fun hn => ?_
    refine Fine.mono (fun _ h => h) (fun c' m' h => ⟨h.1, ?_⟩) (hheap m first xs c hs hm)
    have := h.2; rw [Nat.mul_add]; omega
  | depth + 1, m, first, xs, c, hs, hr, hm => by
    refine smallSortA_fine cheap hs hr c _ (by rw [Nat.mul_add, Nat.mul_comm xs.length]; have := Nat.mul_le_mul_right xs.length (show 3 ≤ 3 * (depth + 1 + 1) by omega); omega) fun hn => ?_
    refine Fine.seq (Fine.mono (fun s e => e ▸ Shuffled.refl ..) ?_ (sortMediansA_fine hs (by simpa using hr 0 (by omega)) hn c))
    rintro c1 m1 ⟨sh1, hc1⟩
    obtain ⟨xs1, p1, s1⟩ := sh1.perm xs rfl hs
    have hl1 := p1.length_eq
    have hip := iteratorPartitionA_fine (P := Shuffled first xs1.length m) (fun _ _ => Shuffled.trans) s1 (hl1 ▸ sh1) (mid := xs.length / 2) (.inl (by omega)) c1
    rw [hl1] at hip
    refine Fine.seq (Fine.mono (fun _ h => h) ?_ hip)
    rintro c2 ⟨m2, mid⟩ ⟨sh2, hk1, hk2, hc2⟩
    obtain ⟨k, rfl⟩ : ∃ k, mid = first + k := ⟨mid - first, by simp only at hk1; omega⟩
    simp only at hk1 hk2 sh2
    have hk : k ≤ xs.length := by omega
    have sh12 := sh1.trans sh2
    obtain ⟨xs2, p2, s2⟩ := sh12.perm xs rfl hs
    have hl2 := p2.length_eq
    have hr2 := sh12.raw hs rfl hr
    have htl : (xs2.take k).length = k := by simp; omega
    have hdl : (xs2.drop k).length = xs.length - k := by simp; omega
    have s2' := s2
    rw [← List.take_append_drop k xs2, Mem.seg_append, htl] at s2'
    have h3 := introsortA_fine cheap hheap depth c2 s2'.1 hr2 (by omega)
    rw [htl] at h3
    simp only [Nat.add_sub_cancel_left]
    refine Fine.seq (Fine.mono (fun s h => sh12.trans (h.sub (a := 0) (by omega))) ?_ h3)
    rintro c3 m3 ⟨sh3, hc3⟩
    have sh3' : Shuffled first xs.length m2 m3 := sh3.sub (a := 0) (by omega)
    have s3' : m3.Seg (first + k) (xs2.drop k) := s2'.2.frame sh3.rest (fun i hi => by simp only [InRange]; omega)
    have hr3 := (sh12.trans sh3').raw hs rfl hr
    have h4 := introsortA_fine cheap hheap depth c3 s3' hr3 (by omega)
    rw [hdl] at h4
    rw [show first + xs.length - (first + k) = xs.length - k by omega]
    refine Fine.mono (fun s h => (sh12.trans sh3').trans (h.sub (by omega))) ?_ h4
    rintro c4 m4 ⟨sh4, hc4⟩
    refine ⟨(sh12.trans sh3').trans (sh4.sub (by omega)), ?_⟩
    have e1 : xs.length * (3 * (depth + 1 + 1) + per) = k * (3 * (depth + 1) + per) + (xs.length - k) * (3 * (depth + 1) + per) + 3 * xs.length := by
      obtain ⟨j, hj⟩ : ∃ j, xs.length = k + j := ⟨xs.length - k, by omega⟩
      rw [hj, Nat.add_sub_cancel_left]; ring
    rw [e1]
    split at hc1 <;> omega

/-- C78, `introsort` and `new_sort`: an exception from the comparison leaves the elements in the range, in some order; without one the range
is sorted. The comparison is a strict weak order whose function object may have state and throw at any call. -/
theorem C78_new_sort {lt : α → α → Bool} (h : StrictWeak lt) (cheap : Bool) {heapA : Mem α → Nat → Nat → Prog (Mem α) (α × α) (Mem α)} {most per : Nat}
    (hfine : HeapFine heapA most per) (hheap : HeapSorts lt fun m first n => (heapA m first n).run (uncurry2 lt)) {temp : Nat} {m : Mem α} {first : Nat}
    {xs : List α} (hs : m.Seg first xs) (hr : m.Raw temp 5) (hm : xs.length ≤ most) {f : τ → α × α → Option (Bool × τ)} (hf : Honest (uncurry2 lt) f) (t : τ) :
    Ask.Ends (fun _ s => Shuffled first xs.length m s) (fun _ r => ∃ m' ys, r = some m' ∧ m'.Seg first ys ∧ IsSort lt xs ys ∧
      m.SameOff m' (InRange first xs.length)) (Ask.exec f t (newSortA cheap temp heapA m first xs.length)) := by
  have hfi : Fine false (Shuffled first xs.length m) (fun _ m' => Shuffled first xs.length m m') 0 (newSortA cheap temp heapA m first xs.length) := by
    refine Fine.seq (Fine.mono (fun _ h => h) ?_ (introsortA_fine cheap hfine (2 * Nat.log2 xs.length) 0 hs hr hm))
    rintro c1 m1 ⟨sh, _⟩
    obtain ⟨ys, p, sy⟩ := sh.perm xs rfl hs
    have := isSortedA_fine (strict := false) (P := Shuffled first xs.length m) sh c1 sy
    rw [p.length_eq] at this
    refine Fine.seq (Fine.mono (fun _ h => h) ?_ this)
    intro c2 b _
    split
    · exact Fine.pure sh
    · rfl
  have hex := hfi.exec (f := f) (t := t)
  generalize hx : Ask.exec f t (newSortA cheap temp heapA m first xs.length) = x at hex ⊢
  obtain ⟨e, c⟩ := x
  cases e with
  | threw s => exact hex
  | returned r =>
    obtain ⟨h1, -⟩ := Ask.exec_honest hf hx
    obtain ⟨m', ys, e1, e2, e3, e4⟩ := C38_new_sort h cheap hheap hs hr
    refine ⟨m', ys, ?_, e2, e3, e4⟩
    rw [h1, ← e1]
    exact newSortA_run lt cheap temp (fun _ _ _ => rfl) m first xs.length

/-- C79: `new_sort` makes at most `n (6 log₂ n + 4 + h)` comparisons, `h` being what the heap functions need per element (`2 log₂ n` or so), for
every strict weak order and every range: there is no quadratic case. -/
theorem C79_new_sort {lt : α → α → Bool} (h : StrictWeak lt) (cheap : Bool) {heapA : Mem α → Nat → Nat → Prog (Mem α) (α × α) (Mem α)} {most per : Nat}
    (hfine : HeapFine heapA most per) (hheap : HeapSorts lt fun m first n => (heapA m first n).run (uncurry2 lt)) {temp : Nat} {m : Mem α} {first : Nat}
    {xs : List α} (hs : m.Seg first xs) (hr : m.Raw temp 5) (hm : xs.length ≤ most) :
    (Ask.calls (uncurry2 lt) (newSortA cheap temp heapA m first xs.length)).length ≤ xs.length * (6 * Nat.log2 xs.length + 4 + per) := by
  have hfi : Fine false (Shuffled first xs.length m) (fun c _ => c ≤ xs.length * (6 * Nat.log2 xs.length + 4 + per)) 0
      (newSortA cheap temp heapA m first xs.length) := by
    refine Fine.seq (Fine.mono (fun _ h => h) ?_ (introsortA_fine cheap hfine (2 * Nat.log2 xs.length) 0 hs hr hm))
    rintro c1 m1 ⟨sh, hc1⟩
    obtain ⟨ys, p, sy⟩ := sh.perm xs rfl hs
    have := isSortedA_fine (strict := false) (P := Shuffled first xs.length m) sh c1 sy
    rw [p.length_eq] at this
    refine Fine.seq (Fine.mono (fun _ h => h) ?_ this)
    intro c2 b hc2
    have e : xs.length * (6 * Nat.log2 xs.length + 4 + per) = xs.length * (3 * (2 * Nat.log2 xs.length + 1) + per) + xs.length := by ring
    split
    · exact Fine.pure (show c2 ≤ _ by omega)
    · rfl
  have hex := hfi.exec (f := fun (t : Unit) q => some (uncurry2 lt q, t)) (t := ())
  have hrun := Ask.exec_run (τ := Unit) (uncurry2 lt) (newSortA cheap temp heapA m first xs.length : Ask _ _ (Option (Mem α))) ()
  obtain ⟨m', ys, e1, -⟩ := C38_new_sort h cheap hheap hs hr
  rw [hrun, Outcome, Ask.Ends] at hex
  have e2 : Ask.run (uncurry2 lt) (newSortA cheap temp heapA m first xs.length) = some m' := by
    rw [← e1]; exact newSortA_run lt cheap temp (fun _ _ _ => rfl) m first xs.length
  simp only [e2, List.length_map, Nat.zero_add] at hex
  exact hex

/-! ### The assumption on the heap functions can be met -/

section Reference

variable [DecidableEq α]

/-- Asks all questions and keeps the answers. -/
def askAll (m : Mem α) : List (α × α) → (α × α → Bool) → Prog (Mem α) (α × α) (α × α → Bool)
  | [], g => pure g
  | q :: qs, g => do
    let b ← call m q
    askAll m qs fun q' => if q' = q then b else g q'

/-- All pairs of elements. -/
def pairsOf (xs : List α) : List (α × α) := xs.flatMap fun x => xs.map fun y => (x, y)

/-- A rearrangement that is sorted according to the answers, if there is one. -/
def bestOf (g : α × α → Bool) (xs : List α) : List α :=
  (xs.permutations.find? fun ys => decide (ys.Pairwise fun a b => g (b, a) = false)).getD xs

/-- Sorts by asking for all pairs and looking for a sorted rearrangement. -/
def askingSort (m : Mem α) (first n : Nat) : Prog (Mem α) (α × α) (Mem α) :=
  let xs := (List.range n).filterMap fun i => m (first + i)
  if xs.length = n then do
    let g ← askAll m (pairsOf xs) fun _ => false
    pure fun a => if first ≤ a ∧ a < first + n then (bestOf g xs)[a - first]? else m a
  else .lift none

theorem askAll_fine {m : Mem α} {P : Mem α → Prop} (hm : P m) : ∀ (qs : List (α × α)) (g : α × α → Bool) (c : Nat),
    Fine strict P (fun c' _ => c' = c + qs.length) c (askAll m qs g)
  | [], g, c => Fine.pure rfl
  | q :: qs, g, c => Fine.seq (Fine.call hm fun b => Fine.mono (fun _ h => h) (fun c' _ h => by simp [h]; omega) (askAll_fine hm qs _ (c + 1)))

theorem askAll_run (f : α × α → Bool) (m : Mem α) : ∀ (qs : List (α × α)) (g : α × α → Bool),
    ∃ g', (askAll m qs g).run f = some g' ∧ (∀ q ∈ qs, g' q = f q) ∧ ∀ q, g q = f q → g' q = f q
  | [], g => ⟨g, rfl, by simp, fun _ h => h⟩
  | q :: qs, g => by
    obtain ⟨g', e, h1, h2⟩ := askAll_run f m qs fun q' => if q' = q then f q else g q'
    refine ⟨g', e, fun q' hq => ?_, fun q' hq => h2 q' ?_⟩
    · rcases List.mem_cons.1 hq with rfl | hq
      · exact h2 _ (by simp)
      · exact h1 _ hq
    · split
      · rename_i hqq; rw [hqq]
      · exact hq

theorem bestOf_perm (g : α × α → Bool) (xs : List α) : (bestOf g xs).Perm xs := by
  rw [bestOf]
  cases e : xs.permutations.find? fun ys => decide (ys.Pairwise fun a b => g (b, a) = false) with
  | none => exact .refl _
  | some ys => exact List.mem_permutations.1 (List.mem_of_find?_eq_some e)

theorem filterMap_seg {m : Mem α} {first : Nat} {xs : List α} (hs : m.Seg first xs) : (List.range xs.length).filterMap (fun i => m (first + i)) = xs := by
  have h1 : (List.range xs.length).map (fun p => m (first + p)) = xs.map some := by
    apply List.ext_getElem
    · simp
    · intro i h1 h2
      simp only [List.length_map] at h2
      simp [hs i h2]
  have h2 : (List.range xs.length).filterMap (fun i => m (first + i)) = ((List.range xs.length).map (fun p => m (first + p))).filterMap id := by
    rw [List.filterMap_map]; rfl
  rw [h2, h1, List.filterMap_map]; simp

theorem write_seg {m : Mem α} {first : Nat} {xs ys : List α} (hp : ys.Perm xs) :
    Mem.Seg (fun a => if first ≤ a ∧ a < first + xs.length then ys[a - first]? else m a) first ys := by
  refine seg_of_get fun i hi => ?_
  rw [hp.length_eq] at hi
  rw [if_pos (by omega), Nat.add_sub_cancel_left]

theorem askingSort_fine (most : Nat) : HeapFine (askingSort (α := α)) most most := by
  intro m first xs c hs hm
  rw [askingSort]
  simp only [filterMap_seg hs, if_true]
  refine Fine.seq (Fine.mono (fun s e => e ▸ Shuffled.refl ..) ?_ (askAll_fine (P := (· = m)) rfl (pairsOf xs) (fun _ => false) c))
  intro c' g hc
  have hlen : (pairsOf xs).length = xs.length * xs.length := by simp [pairsOf, List.length_flatMap]
  exact Fine.pure ⟨.of_seg hs rfl (bestOf_perm g xs) (write_seg (bestOf_perm g xs)) (fun a ha => if_neg ha), by
    have := Nat.mul_le_mul_left xs.length hm; omega⟩

theorem askingSort_sorts {lt : α → α → Bool} (h : StrictWeak lt) : HeapSorts lt fun m first n => (askingSort m first n).run (uncurry2 lt) := by
  intro m first xs hs
  obtain ⟨g, e, h1, -⟩ := askAll_run (uncurry2 lt) m (pairsOf xs) fun _ => false
  have hp := bestOf_perm g xs
  have hg : ∀ x ∈ xs, ∀ y ∈ xs, g (x, y) = lt x y := fun x hx y hy => h1 (x, y) (by simp [pairsOf, hx, hy])
  have hsorted : Sorted lt (bestOf g xs) := by
    obtain ⟨m0, zs, -, -, so, -⟩ := refHeap_sorts h m first xs hs
    rw [bestOf]
    cases e : xs.permutations.find? fun ys => decide (ys.Pairwise fun a b => g (b, a) = false) with
    | none =>
      exfalso
      have := List.find?_eq_none.1 e zs (List.mem_permutations.2 so.perm)
      refine this (decide_eq_true ?_)
      refine List.Pairwise.imp_of_mem ?_ so.sorted
      intro a b ha hb hab
      rw [hg b (so.perm.mem_iff.1 hb) a (so.perm.mem_iff.1 ha)]; exact hab
    | some ys =>
      have h2 := List.mem_permutations.1 (List.mem_of_find?_eq_some e)
      have h3 := List.find?_some e
      simp only [decide_eq_true_eq] at h3
      refine List.Pairwise.imp_of_mem ?_ h3
      intro a b ha hb hab
      rw [← hg b (h2.mem_iff.1 hb) a (h2.mem_iff.1 ha)]; exact hab
  refine ⟨_, bestOf g xs, ?_, write_seg hp, ⟨hsorted, hp⟩, fun hc => (by cases hc), fun a ha => by dsimp only; rw [if_neg ha]⟩
  simp only [askingSort, filterMap_seg hs, if_true, Prog.run_bind, e, Option.bind_some, Prog.run_pure]

end Reference

/-! ## `iterator_partition` -/

/-- C78, `iterator_partition`: the elements stay in the range whenever the comparison is called, and an exception leaves them there; if it
answers as an irreflexive relation, the range is partitioned by the element that was in the middle when it returns, after at most `n + 1`
comparisons. -/
theorem C78_iterator_partition {cmp : α → α → Bool} (hirr : ∀ x, cmp x x = false) {m : Mem α} {xs : List α} {first c : Nat} {v : α} (hs : m.Seg first xs)
    (hv : xs[c]? = some v) {f : τ → α × α → Option (Bool × τ)} (hf : Honest (uncurry2 cmp) f) (t : τ) :
    Ask.Ends (fun _ s => Shuffled first xs.length m s) (fun calls r => ∃ m' ys k, r = some (m', first + k) ∧ m'.Seg first ys ∧
        IsPartition (fun x => cmp x v) xs ys k ∧ m.SameOff m' (InRange first xs.length) ∧ calls.length ≤ xs.length + 1)
      (Ask.exec f t (iteratorPartitionA m first (first + c) (first + xs.length))) := by
  have hc : c < xs.length := (List.getElem?_eq_some_iff.1 hv).1
  have hex := (iteratorPartitionA_fine (P := Shuffled first xs.length m) (fun _ _ => Shuffled.trans) hs (.refl ..) (.inl hc) 0).exec (f := f) (t := t)
  generalize hx : Ask.exec f t (iteratorPartitionA m first (first + c) (first + xs.length)) = x at hex ⊢
  obtain ⟨e, cs⟩ := x
  cases e with
  | threw s => exact hex
  | returned r =>
    obtain ⟨h1, -⟩ := Ask.exec_honest hf hx
    obtain ⟨m', ys, k, e1, e2, e3, e4⟩ := C37_iterator_partition hirr hs hv
    have hr : r = some (m', first + k) := by
      rw [h1, ← e1]; exact iteratorPartitionA_run cmp m first (first + c) (first + xs.length)
    subst hr
    simp only [Outcome, Ask.Ends, Nat.zero_add] at hex ⊢
    exact ⟨m', ys, k, rfl, e2, e3, e4, hex.2.2.2⟩

/-! ## What does not hold -/

/-- The elements `xs` at address 0, nothing else. -/
def only (xs : List α) : Mem α := fun a => xs[a]?

/-- A comparison that answers `k` times and then throws. -/
def tires (lt : α → α → Bool) : Nat → α × α → Option (Bool × Nat)
  | 0, _ => none
  | k + 1, q => some (lt q.1 q.2, k)

theorem tires_honest (lt : α → α → Bool) : Honest (uncurry2 lt) (tires lt)
  | 0, _, _, _, h => by simp [tires] at h
  | k + 1, (x, y), b, t', h => by simp only [tires, Option.some.injEq, Prod.mk.injEq] at h; exact h.1.symm

/-- The memory at an exception. -/
def atThrow : Ask.Ending S R → Option S
  | .threw s => some s
  | .returned _ => none

theorem only_seg (xs : List α) : (only xs).Seg 0 xs := fun i hi => by simp only [only, Nat.zero_add]; exact List.getElem?_eq_getElem hi

/-- A comparison that is a strict weak order and throws in `fixed_size_merge_sort` loses an element: the range `{2, 1}` is left with no
object in its first place, the `2` being in the buffer. -/
theorem C78_fixed_size_merge_sort_violated :
    ∃ s, atThrow (Ask.exec (tires fun a b : Nat => decide (a < b)) 0 (fixedSizeMergeSortA false (only [2, 1]) 0 1 1 10 20)).1 = some s ∧
      s 0 = none ∧ s 1 = some 1 ∧ s 10 = some 2 := ⟨_, rfl, rfl, rfl, rfl⟩

/-- So does `merge_relocate_second_range`: with `{1, 3}` and `{2, 4}`, when the second call throws, the place before the `4` has no
object and the `2` is still in the buffer. -/
theorem C78_merge_relocate_violated :
    ∃ s, atThrow (Ask.exec (tires fun a b : Nat => decide (a < b)) 1 (mergeRelocateSecondA (fun a => if a < 10 then only [1, 3] a else only [2, 4] (a - 10)) 0 2 10 12 4)).1 = some s ∧
      (List.range 4).map s = [some 1, some 3, none, some 4] ∧ s 10 = some 2 ∧ s 11 = none := ⟨_, rfl, rfl, rfl, rfl⟩

/-- And `chunked_insertion_sort`: sorting `{0, 4, 3, 2, 1}`, an exception leaves a place of the range without an object. -/
theorem C78_chunked_insertion_sort_violated :
    ∃ s, atThrow (Ask.exec (tires fun a b : Nat => decide (a < b)) 6 (chunkedInsertionSortA false (only [0, 4, 3, 2, 1]) 0 5 10 20)).1 = some s ∧
      ∃ a < 5, s a = none := by
  refine ⟨_, rfl, ?_⟩
  decide +kernel

/-- A comparison that contradicts itself makes the branchless routine for three elements relocate one element twice and
another not at all: the comparison here is that of floating-point numbers with `4` for not-a-number. -/
theorem C78_sort_exactly_inconsistent_violated :
    ∃ lt : Nat → Nat → Bool, (∀ x, lt x x = false) ∧ (∀ x y, lt x y = true → lt y x = false) ∧ ∃ xs : List Nat, xs.length = 3 ∧
      (Ask.exec (tires lt) 10 (sortExactlyA true (only xs) 0 3 20)).1 = .returned none := by
  refine ⟨fun x y => decide (x < y ∧ x ≠ 4 ∧ y ≠ 4), by simp, ?_, [5, 4, 3], rfl, ?_⟩
  · intro x y h
    simp only [decide_eq_true_eq] at h
    simp; omega
  · rfl

/-- The answers of a function object with state that does not look at its arguments. -/
def script : List Bool → α × α → Option (Bool × List Bool)
  | [], _ => none
  | b :: bs, _ => some (b, bs)

/-- A function object that gives different answers for the same elements takes `iterator_partition` out of its range. -/
theorem C78_iterator_partition_inconsistent_violated :
    (Ask.exec script [true, false, true, true] (iteratorPartitionA (only [1, 2, 3, 4]) 0 0 4)).1 = .returned none := rfl

/-! ## Examples -/

theorem strictWeak_nat : StrictWeak fun a b : Nat => decide (a < b) :=
  ⟨fun h => by simp_all; omega, fun h1 h2 => by simp_all; omega⟩

/-- The hypotheses on `new_sort` are met by seven numbers, a comparison that throws at the twenty-first call and the sort that asks for all pairs. -/
example := C78_new_sort strictWeak_nat true (askingSort_fine 7) (askingSort_sorts strictWeak_nat) (only_seg [7, 6, 5, 4, 3, 2, 1]) (temp := 20)
  (fun i hi => by simp only [only]; exact List.getElem?_eq_none (by simp; omega)) (by decide) (tires_honest fun a b : Nat => decide (a < b)) 20

/-- If it throws at the fourth call, all seven elements are there in the order the sort had reached. -/
example : (atThrow (Ask.exec (tires fun a b : Nat => decide (a < b)) 3
    (newSortA true 20 askingSort (only [7, 6, 5, 4, 3, 2, 1]) 0 7)).1).map (fun s => (List.range 7).map s) =
    some [some 1, some 6, some 5, some 4, some 3, some 2, some 7] := by decide +kernel

/-- Without an exception it is sorted. -/
example : (match (Ask.exec (tires fun a b : Nat => decide (a < b)) 100
      (newSortA true 20 askingSort (only [7, 6, 5, 4, 3, 2, 1]) 0 7)).1 with
    | .returned (some s) => (List.range 7).map s
    | _ => []) = [some 1, some 2, some 3, some 4, some 5, some 6, some 7] := by decide +kernel

/-- The number of comparisons for seven elements, and the bound. -/
example : (Ask.calls (uncurry2 fun a b : Nat => decide (a < b)) (newSortA true 20 askingSort (only [7, 6, 5, 4, 3, 2, 1]) 0 7)).length = 27 := by decide +kernel

example := C79_new_sort strictWeak_nat true (askingSort_fine 7) (askingSort_sorts strictWeak_nat) (only_seg [7, 6, 5, 4, 3, 2, 1]) (temp := 20)
  (fun i hi => by simp only [only]; exact List.getElem?_eq_none (by simp; omega)) (by decide)

/-- `partition` with a predicate that answers at random and throws at the fifth call. -/
example := C78_partition (only_seg [7, 6, 5, 4, 3, 2, 1]) true (fun (t : Nat) (_ : Nat) => if t = 4 then none else some (t % 2 == 0, t + 1)) 0

example := C78_iterator_partition (cmp := fun a b : Nat => decide (a < b)) (by simp) (only_seg [7, 6, 5, 4]) (c := 2) (v := 5) rfl
  (tires_honest fun a b : Nat => decide (a < b)) 2

example := C78_sort_exactly false (only_seg [7, 6, 5, 4]) (temp := 20) (fun i hi => by simp only [only]; exact List.getElem?_eq_none (by simp; omega)) (by decide) (by decide)
  (tires fun a b : Nat => decide (a < b)) 2

end Verif.Algo
